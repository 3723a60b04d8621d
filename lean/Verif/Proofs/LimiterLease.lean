import Verif.Spec.LimiterLease
import Verif.Proofs.LimiterCount
/-! Concurrent increments whose leases can be lost. -/
namespace Willow.LimLease
open Willow Willow.Assoc Willow.Spec Willow.OTM Willow.OTMSpec Willow.Limiter Willow.LimSpec Willow.LimConc KeyOps BTree

/-! ### What holds of every system -/

/-- Two increments hold no common lock at the locker. -/
def LApart (a b : LThread Key) : Prop := ∀ x ∈ a.holds, ∀ y ∈ b.holds, sameLock x y = false

theorem LApart.symm {a b : LThread Key} (h : LApart a b) : LApart b a := fun x hx y hy => by rw [sameLock_symm]; exact h y hy x hx

theorem LApart.mono {a a' b : LThread Key} (h : LApart a b) (hs : ∀ x ∈ a'.holds, x ∈ a.holds) : LApart a' b := fun x hx y hy => h x (hs x hx) y hy

structure LSysInv (s : LSys Key) : Prop where
  lim : RInv s.st
  threads : ∀ t ∈ s.threads, TInv t.th
  apart : s.threads.Pairwise LApart

theorem LSysInv.replace {st st' : State Key} {a b : List (LThread Key)} {t t' : LThread Key} (h : LSysInv ⟨st, a ++ t :: b⟩) (hl : RInv st')
    (ht : TInv t'.th) (hap : ∀ u ∈ a ++ b, LApart t' u) : LSysInv ⟨st', a ++ t' :: b⟩ := by
  refine ⟨hl, ?_, ?_⟩
  · intro x hx
    rcases mem_middle.1 hx with rfl | hx
    · exact ht
    · exact h.threads x (mem_middle.2 (.inr hx))
  · rw [pairwise_middle LApart.symm]
    exact ⟨hap, ((pairwise_middle LApart.symm).1 h.apart).2⟩

theorem mem_holds {t : LThread Key} {x : GoString × Key} : x ∈ t.holds ↔ x ∈ t.th.held ∧ x.1 ∉ t.lost := by
  unfold LThread.holds
  rw [List.mem_filter]; simp

theorem fail_held {r : Req Key} {ls : List (List GoString × Int)} {todo : List GoString} {out : Out Key} {x : GoString × Key}
    (hx : x ∈ ({ req := r, phase := .releasing ((sortedKeys r.kvs).filter (fun k => !todo.contains k)) out } : Thread Key).held) :
    x ∈ ({ req := r, phase := .locking ls todo } : Thread Key).held := by
  simp only [Thread.held, List.mem_filter] at hx ⊢
  refine ⟨hx.1, ?_⟩
  have := List.contains_iff_mem.1 hx.2
  exact (List.mem_filter.1 this).2

theorem LSysInv.step {s s' : LSys Key} {l : Label Key} (h : LSysInv s) (hv : ValidLabel l) (hs : LStep s l s') : LSysInv s' := by
  cases hs with
  | arrive r =>
    refine ⟨h.lim, ?_, ?_⟩
    · intro t ht
      rcases List.mem_cons.1 ht with rfl | ht
      · exact ⟨hv.1, hv.2.1, hv.2.2.1, hv.2.2.2.2, trivial⟩
      · exact h.threads t ht
    · rw [List.pairwise_cons]
      exact ⟨fun u _ x hx => by simp [LThread.holds, Thread.held] at hx, h.apart⟩
  | other s0 op st' out e =>
    obtain ⟨st1, out1, e1, hI, _⟩ := any_step h.lim hv.1
    rw [e] at e1; cases e1
    exact ⟨hI, h.threads, h.apart⟩
  | move st a b t st' p hf e =>
    obtain ⟨h1, h2, h3⟩ := advance_inv h.lim (h.threads t (mem_middle.2 (.inl rfl))) e
    refine h.replace h1 h2 ?_
    intro u hu x hx y hy
    rw [mem_holds] at hx
    rcases h3 x hx.1 with hx1 | hx1
    · exact ((pairwise_middle LApart.symm).1 h.apart).1 u hu x (mem_holds.2 ⟨hx1, hx.2⟩) y hy
    · exact hf x hx1 u (mem_middle.2 (.inr hu)) y hy
  | fail st a b r ls todo lost =>
    have ht := h.threads _ (mem_middle.2 (.inl rfl))
    refine h.replace h.lim ⟨ht.kvs, ht.typed, ht.pos, ht.choice, trivial⟩ ?_
    intro u hu
    refine (((pairwise_middle LApart.symm).1 h.apart).1 u hu).mono ?_
    intro x hx
    rw [mem_holds] at hx ⊢
    exact ⟨fail_held hx.1, hx.2⟩
  | lose st a b t k ho hk =>
    have ht := h.threads _ (mem_middle.2 (.inl rfl))
    refine h.replace h.lim ht ?_
    intro u hu
    refine (((pairwise_middle LApart.symm).1 h.apart).1 u hu).mono ?_
    intro x hx
    rw [mem_holds] at hx ⊢
    exact ⟨hx.1, fun hm => hx.2 (by simp [hm])⟩
  | loseLate st a b r todo lost out k =>
    have ht := h.threads _ (mem_middle.2 (.inl rfl))
    refine h.replace h.lim ⟨ht.kvs, ht.typed, ht.pos, ht.choice, trivial⟩ ?_
    intro u hu
    refine (((pairwise_middle LApart.symm).1 h.apart).1 u hu).mono ?_
    intro x hx
    rw [mem_holds] at hx ⊢
    refine ⟨?_, hx.2⟩
    have := hx.1
    simp only [Thread.held, List.mem_filter, List.contains_iff_mem] at this ⊢
    exact ⟨this.1, this.2.1⟩

theorem LSysInv.run {s s' : LSys Key} {ls : List (Label Key)} (h : LSysInv s) (hv : ∀ l ∈ ls, ValidLabel l) (hr : LRun s ls s') : LSysInv s' := by
  induction hr with
  | nil => exact h
  | cons hs _ ih => exact ih (h.step (hv _ (by simp)) hs) (fun l hl => hv l (by simp [hl]))

theorem holds_kept {t : LThread Key} (h : t.lost = []) : t.holds = t.th.held := by
  unfold LThread.holds; rw [h]; simp

/-- Increments that hold all their locks do not overlap. -/
theorem LSysInv.exclusive {st : State Key} {a b : List (LThread Key)} {t u : LThread Key} (h : LSysInv ⟨st, a ++ t :: b⟩) (hu : u ∈ a ++ b)
    (ht : t.th.critical) (huc : u.th.critical) (htl : t.lost = []) (hul : u.lost = []) {keys : List GoString} (hne : keys ≠ []) :
    agree keys t.th.req.kvs u.th.req.kvs = false := by
  cases hg : agree keys t.th.req.kvs u.th.req.kvs
  · rfl
  · obtain ⟨x, hx, y, hy, hl⟩ := agree_sameLock hne hg
    have := ((pairwise_middle LApart.symm).1 h.apart).1 u hu x (by rw [holds_kept htl, held_critical ht]; exact hx) y
      (by rw [holds_kept hul, held_critical huc]; exact hy)
    rw [hl] at this; cases this

theorem LSysInv.progress {s : LSys Key} (h : LSysInv s) (hex : ∃ t ∈ s.threads, ¬ t.th.finished) :
    ∃ a t b st' p, s.threads = a ++ t :: b ∧ ¬ t.th.finished ∧ LFree s.threads t ∧ advance s.st t.th = some (st', p) := by
  obtain ⟨t0, ht0, hn0⟩ := hex
  obtain ⟨a', t, b', st', p, e, hnd, hf, ha⟩ := progress_of (s := ⟨s.st, s.threads.map (·.th)⟩) h.lim
    (by intro t ht; obtain ⟨u, hu, rfl⟩ := List.mem_map.1 ht; exact h.threads u hu) ⟨t0.th, List.mem_map.2 ⟨t0, ht0, rfl⟩, hn0⟩
  simp only at e hf ha
  have htm : t ∈ s.threads.map (·.th) := by rw [e]; exact mem_middle.2 (.inl rfl)
  obtain ⟨u, hu, rfl⟩ := List.mem_map.1 htm
  obtain ⟨a, b, e'⟩ := List.append_of_mem hu
  refine ⟨a, u, b, st', p, e', hnd, ?_, ha⟩
  intro l hl w hw x hx
  exact hf l hl w.th (List.mem_map.2 ⟨w, hw, rfl⟩) x (mem_holds.1 hx).1

/-! ### Groups -/

/-- From one state to the next at most `d` was added to the counters of the group. -/
structure FrozenBy (d : Int) (keys : List GoString) (kvs : KVs Key) (t t' : ATree Key Int) : Prop where
  sum : ∀ q, gsum keys kvs t'.items q ≤ gsum keys kvs t.items q + d
  old : ∀ i' ∈ t'.items, i'.id < t.next → ∃ i ∈ t.items, i.id = i'.id ∧ i.kvs = i'.kvs
  next : t.next ≤ t'.next

theorem GPhase.grow {keys : List GoString} {kvs : KVs Key} {L ρ T d : Int} {t t' : ATree Key Int} {p : Phase Key} (h : GPhase keys kvs L ρ T t p)
    (hf : FrozenBy d keys kvs t t') : GPhase keys kvs L (ρ + d) (T + d) t' p := by
  have hs := hf.sum (fun _ => true)
  cases p with
  | start => trivial
  | releasing _ _ => trivial
  | done _ => trivial
  | locking _ _ => exact h
  | checking _ => exact h.imp id (fun x => by omega)
  | adding b => exact ⟨h.1, by have := h.2; omega⟩
  | summing limit rest ids acc =>
    refine h.imp id (Or.imp (fun x => by omega) (Or.imp id ?_))
    rintro ⟨h1, h2, h3, h4, h5, h6, h7⟩
    refine ⟨h1, h2, fun id hi => Nat.lt_of_lt_of_le (h3 id hi) hf.next, ?_, h5, ?_, ?_⟩
    · intro i hi hid
      obtain ⟨j, hj, e1, e2⟩ := hf.old i hi (h3 _ hid)
      rw [← e2]; exact h4 j hj (by rw [e1]; exact hid)
    · have := hf.sum (fun id => !ids.contains id); omega
    · have := hf.sum (fun id => ids.contains id); omega

theorem GPhase.mono {keys : List GoString} {kvs : KVs Key} {L ρ ρ' T T' : Int} {t : ATree Key Int} {p : Phase Key} (h : GPhase keys kvs L ρ T t p)
    (h1 : ρ ≤ ρ') (h2 : T ≤ T') : GPhase keys kvs L ρ' T' t p := by
  cases p with
  | start => trivial
  | releasing _ _ => trivial
  | done _ => trivial
  | locking _ _ => exact h
  | checking _ => exact h.imp id (fun x => by omega)
  | adding b => exact ⟨h.1, by have := h.2; omega⟩
  | summing limit rest ids acc =>
    refine h.imp id (Or.imp (fun x => by omega) (Or.imp id ?_))
    rintro ⟨g1, g2, g3, g4, g5, g6, g7⟩
    exact ⟨g1, g2, g3, g4, g5, by omega, by omega⟩

theorem gsum_add_le {keys : List GoString} {kvs : KVs Key} {l : List (Item Key Int)} (nd : (l.map (·.id)).Nodup) {id : Nat} {f : Int → Int} {d : Int} (hd : 0 ≤ d)
    (q : Nat → Bool) (h : ∀ i ∈ l, i.id = id → f i.value ≤ i.value + d) :
    gsum keys kvs (l.map (fun i => if i.id == id then { i with value := f i.value } else i)) q ≤ gsum keys kvs l q + d := by
  induction l with
  | nil => simp only [List.map_nil, gsum_nil]; omega
  | cons i l ih =>
    simp only [List.map_cons, List.nodup_cons] at nd
    rw [List.map_cons, gsum_cons, gsum_cons]
    by_cases hid : i.id = id
    · have hsame : l.map (fun i => if i.id == id then { i with value := f i.value } else i) = l := by
        rw [List.map_congr_left (g := fun x => x)]
        · simp
        · intro x hx
          have : x.id ≠ id := fun e => nd.1 (List.mem_map.2 ⟨x, hx, by omega⟩)
          simp [this]
      rw [hsame]
      have := h i (by simp) hid
      simp only [hid, beq_self_eq_true, if_true]
      split <;> omega
    · have h1 := ih nd.2 (fun j hj => h j (by simp [hj]))
      generalize gsum keys kvs (l.map (fun i => if i.id == id then { i with value := f i.value } else i)) q = S at h1 ⊢
      simp only [beq_iff_eq, hid, if_false]; omega

/-- Adding to a counter adds no more than that to any part of any group. -/
theorem add_grows {st : State Key} {B : Int} (h : LInv st B) {k : KVs Key} (hv : ValidKVs k) (ht : Typed k) {c : Int} (hpos : 0 < c) (hB : B + c < 2 ^ 63)
    {st' : State Key} {out : Out Key} (ha : addCounter st k c = some (st', out)) (keys : List GoString) (kvs : KVs Key) :
    FrozenBy c keys kvs st.counters st'.counters := by
  obtain ⟨t, o, e, hI1, hs⟩ := h.cinv.createOrFind hv (some c)
  unfold addCounter at ha
  rw [e] at ha
  simp only [storeStep] at hs
  cases hfi : st.counters.items.find? (fun i => sameKVs k i.kvs) with
  | none =>
    rw [hfi] at hs
    simp only [Prod.mk.injEq, Store.mk.injEq] at hs
    obtain ⟨⟨hit, hnx⟩, ho⟩ := hs
    cases o <;> simp [Spec.seen] at ho
    simp only [Option.some.injEq, Prod.mk.injEq] at ha
    obtain ⟨rfl, _⟩ := ha
    refine ⟨?_, ?_, by simp only; omega⟩
    · intro q
      simp only
      rw [← hit, gsum_append, gsum_cons, gsum_nil]
      simp only
      split <;> omega
    · intro i hi hn
      simp only at hi
      rw [← hit] at hi
      rcases List.mem_append.1 hi with hi | hi
      · exact ⟨i, hi, rfl, rfl⟩
      · simp only [List.mem_singleton] at hi; subst hi; simp only at hn; omega
  | some x =>
    rw [hfi] at hs
    simp only [Prod.mk.injEq, Store.mk.injEq] at hs
    obtain ⟨⟨hit, hnx⟩, ho⟩ := hs
    cases o <;> simp [Spec.seen] at ho
    subst ho
    simp only [Option.some.injEq, Prod.mk.injEq] at ha
    obtain ⟨rfl, _⟩ := ha
    refine ⟨?_, ?_, by simp only [Limiter.modify]; omega⟩
    · intro q
      have hh := gsum_add_le (keys := keys) (kvs := kvs) (l := t.items) hI1.ids (id := x.id) (f := fun v => add64 v c) (d := c) (by omega) q (by
        intro i hi _
        rw [← hit] at hi
        have h1 := h.cpos i hi
        have h2 := le_sum h.cpos hi
        have := h.csum
        rw [add64_eq (by omega) (by omega)]; omega)
      rw [hit]
      exact hh
    · intro i' hi' _
      obtain ⟨j, hj, e1, e2, _⟩ := mem_modify hi'
      rw [← hit] at hj
      exact ⟨j, hj, by omega, e2.symm⟩

/-! ### The invariant of a group -/

theorem slips_middle (keys : List GoString) (kvs : KVs Key) (a b : List (LThread Key)) (t : LThread Key) :
    slips keys kvs (a ++ t :: b) = (if t.slipped && agree keys kvs t.th.req.kvs then t.th.req.c else 0) + slips keys kvs (a ++ b) := by
  simp only [slips, List.filter_append, List.filter_cons]
  split <;> simp [List.sum_append] <;> omega

theorem slips_nonneg {keys : List GoString} {kvs : KVs Key} {l : List (LThread Key)} (h : ∀ t ∈ l, TInv t.th) : 0 ≤ slips keys kvs l := by
  apply sum_nonneg
  intro v hv
  obtain ⟨t, ht, rfl⟩ := List.mem_map.1 hv
  exact (h t (List.mem_filter.1 ht).1).pos

/-- All that may still be added by running increments. -/
def lpends (l : List (LThread Key)) : Int := pends (l.map (·.th))

theorem lpends_middle (a b : List (LThread Key)) (t : LThread Key) : lpends (a ++ t :: b) = pend t.th + lpends (a ++ b) := by
  simp only [lpends, List.map_append, List.map_cons]; exact pends_middle _ _ _

theorem lpends_nonneg {l : List (LThread Key)} (h : ∀ t ∈ l, TInv t.th) : 0 ≤ lpends l :=
  pends_nonneg (fun t ht => by obtain ⟨u, hu, rfl⟩ := List.mem_map.1 ht; exact h u hu)

theorem open_not_ok {t : LThread Key} (h : t.open) : t.th.okB = false := by
  obtain ⟨⟨r, p⟩, l⟩ := t
  cases p <;> first | rfl | exact absurd h (by simp [LThread.open])

/-- The invariant; `R` is what the remaining steps may bring. -/
structure GE (keys : List GoString) (kvs : KVs Key) (L m T M : Int) (P : St → Prop) (s : LSys Key) (R : Int) : Prop where
  base : LSysInv s
  lim : ∃ B, LInv s.st B ∧ B + lpends s.threads + R ≤ T ∧
    ∀ t ∈ s.threads, t.lost = [] → agree keys kvs t.th.req.kvs = true → GPhase keys kvs L (slips keys kvs s.threads) B s.st.counters t.th.phase
  rule : P (abs s.st)
  tot : groupTotal (abs s.st).counters keys kvs ≤ M + slips keys kvs s.threads
  amt : ∀ t ∈ s.threads, t.th.req.c ≤ m

section
variable {keys : List GoString} {kvs : KVs Key} {L m T M : Int} {P : St → Prop}

theorem GE.step {s s' : LSys Key} {l : Label Key} {R : Int} (hT : T < 2 ^ 63) (hL : L ≠ -1) (hne : keys ≠ []) (hM : L - 1 + m ≤ M)
    (hP : ∀ st, P st → ∀ k, agree keys kvs k = true → (keys, L) ∈ effective st.rules k)
    (hPr : ∀ st st', P st → st'.rules = st.rules → P st') (keeps : Op Key → Prop)
    (hK : ∀ op, keeps op → ∀ st, SInv st → P st → P (specStep st op).1)
    (h : GE keys kvs L m T M P s (labelAmount l + R)) (hR : 0 ≤ R) (hv : ValidLabel l) (hq : Quiet keeps m l) (hs : LStep s l s') :
    GE keys kvs L m T M P s' R := by
  obtain ⟨B, hI, hBT, hthr⟩ := h.lim
  have hpn := lpends_nonneg h.base.threads
  have hsn := slips_nonneg (keys := keys) (kvs := kvs) h.base.threads
  have hb := h.base.step hv hs
  have htot := h.tot
  cases hs with
  | arrive r =>
    rename_i r
    have hsl : slips keys kvs (⟨⟨r, .start⟩, []⟩ :: s.threads) = slips keys kvs s.threads := by
      have := slips_middle keys kvs [] s.threads ⟨⟨r, .start⟩, []⟩
      simp only [List.nil_append] at this
      rw [this]; simp [LThread.slipped]
    refine ⟨hb, ⟨B, hI, ?_, ?_⟩, h.rule, ?_, ?_⟩
    · simp only [labelAmount] at hBT
      have := lpends_middle [] s.threads ⟨⟨r, .start⟩, []⟩
      simp only [List.nil_append, pend] at this
      simp only; rw [this]; omega
    · intro t ht hl hg
      simp only; rw [hsl]
      rcases List.mem_cons.1 ht with rfl | ht
      · trivial
      · exact hthr t ht hl hg
    · simp only; rw [hsl]; exact htot
    · intro t ht
      rcases List.mem_cons.1 ht with rfl | ht
      · exact hq
      · exact h.amt t ht
  | other s0 op st' out e =>
    have ha : amount op ≤ 0 := by
      cases op with
      | upsert ch k c => have := hv.2 ch k c rfl; simp only [amount]; omega
      | setCounter k c => have := hq.2 k c rfl; simp only [amount]; omega
      | _ => exact Int.le_refl _
    have ha0 := amount_nonneg op
    have haz : amount op = 0 := by omega
    simp only [labelAmount, haz] at hBT
    obtain ⟨st1, out1, e1, h1, hab, _⟩ := sim_step hI hv.1 (by rw [haz]; omega)
    rw [e] at e1; cases e1
    have hf := other_frozen hI (by omega) hv.1 hv.2 hq.2 e keys kvs
    rw [haz] at h1
    refine ⟨hb, ⟨B, by simpa using h1, by simp only; omega, ?_⟩, ?_, ?_, h.amt⟩
    · intro t ht hl hg
      exact (hthr t ht hl hg).frozen hf
    · show P (abs _); rw [hab]; exact hK op hq.1 _ hI.sinv h.rule
    · have h2 := hf.sum (fun _ => true)
      rw [gsum_total, gsum_total] at h2
      exact Int.le_trans h2 htot
  | move st a b t st' p hfree e =>
    have htm : t ∈ a ++ t :: b := mem_middle.2 (.inl rfl)
    have hti := h.base.threads t htm
    have hbase' : ∀ u ∈ a ++ b, u ∈ a ++ t :: b := fun u hu => mem_middle.2 (.inr hu)
    simp only [labelAmount, Int.zero_add] at hBT
    rw [lpends_middle] at hBT
    have hpab : 0 ≤ lpends (a ++ b) := lpends_nonneg (fun u hu => h.base.threads u (hbase' u hu))
    have hpt := pend_nonneg hti
    have hamt : ∀ u ∈ a ++ (⟨⟨t.th.req, p⟩, t.lost⟩ : LThread Key) :: b, u.th.req.c ≤ m := by
      intro u hu
      rcases mem_middle.1 hu with rfl | hu
      · exact h.amt t htm
      · exact h.amt u (hbase' u hu)
    simp only at htot hthr hsn
    rw [slips_middle] at htot hthr hsn
    by_cases hadd : ∃ b', t.th.phase = .adding b'
    · -- the counter is increased
      obtain ⟨b', hb'⟩ := hadd
      have hpc : pend t.th = t.th.req.c := by unfold pend; rw [hb']
      obtain ⟨st1, e1, h1, hr, hn, htot', hfz⟩ := add_spec hI hti.kvs hti.typed hti.pos (by omega) keys kvs
      have hgrow := add_grows hI hti.kvs hti.typed hti.pos (by omega) e1 keys kvs
      have e' : LimConc.advance st t.th = some (st', p) := e
      unfold LimConc.advance at e'
      rw [hb'] at e'
      simp only at e' e1
      rw [e1] at e'
      simp only [Option.map_some, Option.some.injEq, Prod.mk.injEq] at e'
      obtain ⟨rfl, rfl⟩ := e'
      have hgp : ∀ ρ B, GPhase keys kvs L ρ B st1.counters (if b' = true then Phase.releasing (sortedKeys t.th.req.kvs) Out.ok else Phase.done Out.ok) := by
        intro ρ B; cases b' <;> trivial
      have hpp : pend ⟨t.th.req, if b' = true then Phase.releasing (sortedKeys t.th.req.kvs) Out.ok else Phase.done Out.ok⟩ = 0 := by
        cases b' <;> rfl
      have hno : t.slipped = false := by
        unfold LThread.slipped Thread.okB; rw [hb']; simp
      have hsl : (⟨⟨t.th.req, if b' = true then Phase.releasing (sortedKeys t.th.req.kvs) Out.ok else Phase.done Out.ok⟩, t.lost⟩ : LThread Key).slipped = !t.lost.isEmpty := by
        unfold LThread.slipped Thread.okB
        cases b' <;> simp
      rw [hno] at htot hthr hsn
      simp only [Bool.false_and, Bool.false_eq_true, if_false, Int.zero_add] at htot hthr hsn
      have hbs := h.base
      have hpos := hti.pos
      refine ⟨hb, ⟨B + t.th.req.c, h1, ?_, ?_⟩, hPr _ _ h.rule hr, ?_, hamt⟩
      · simp only; rw [lpends_middle, hpp]; omega
      · intro u hu hul hg
        simp only
        rw [slips_middle, hsl]
        simp only
        rcases mem_middle.1 hu with rfl | hu
        · exact hgp _ _
        · have hgu := hthr u (hbase' u hu) hul hg
          cases hgt : agree keys kvs t.th.req.kvs
          · simp only [Bool.and_false, Bool.false_eq_true, if_false, Int.zero_add]
            exact GPhase.mono (hgu.frozen (hfz hgt)) (Int.le_refl _) (by omega)
          · cases hlost : t.lost with
            | nil =>
              simp only [List.isEmpty_nil, Bool.not_true, Bool.false_and, Bool.false_eq_true, if_false, Int.zero_add]
              refine GPhase.mono (GPhase.same hgu ?_) (Int.le_refl _) (by omega)
              intro hcu
              have hct : t.th.critical := by
                have := hthr t htm hlost hgt
                rw [hb'] at this
                obtain ⟨rfl, _⟩ := this
                unfold Thread.critical; rw [hb']; trivial
              have := hbs.exclusive hu hct hcu hlost hul hne
              rw [agree_trans (agree_symm hgt) hg] at this; cases this
            | cons x xs =>
              simp only [List.isEmpty_cons, Bool.not_false, Bool.true_and, if_true]
              rw [Int.add_comm t.th.req.c]
              exact GPhase.grow hgu hgrow
      · simp only
        rw [htot', slips_middle, hsl]
        show groupTotal (abs st).counters keys kvs + _ ≤ _
        simp only
        cases hgt : agree keys kvs t.th.req.kvs
        · simp only [Bool.and_false, Bool.false_eq_true, if_false]; omega
        · simp only [if_true, Bool.and_true]
          cases hlost : t.lost with
          | cons x xs =>
            simp only [List.isEmpty_cons, Bool.not_false, if_true]; omega
          | nil =>
            have := hthr t htm hlost hgt
            rw [hb'] at this
            have h2 := this.2
            rw [gsum_total] at h2
            have := h.amt t htm
            simp only [List.isEmpty_nil, Bool.not_true, Bool.false_eq_true, if_false]
            omega
    · -- nothing stored changes
      obtain ⟨rfl, hok, hpd⟩ := advance_not_adding (fun b' hb' => hadd ⟨b', hb'⟩) e
      have hsl : (⟨⟨t.th.req, p⟩, t.lost⟩ : LThread Key).slipped = t.slipped := by
        unfold LThread.slipped
        have : ({ req := t.th.req, phase := p } : Thread Key).okB = t.th.okB := hok
        rw [this]
      have hpd' : pend (⟨t.th.req, p⟩ : Thread Key) ≤ max (pend t.th) 0 := hpd
      have hbs := h.base
      refine ⟨hb, ⟨B, hI, ?_, ?_⟩, h.rule, ?_, hamt⟩
      · simp only; rw [lpends_middle]; simp only; omega
      · intro u hu hul hg
        simp only
        rw [slips_middle, hsl]
        rcases mem_middle.1 hu with rfl | hu
        · rcases GPhase.advance hsn hI (Int.le_refl B) (by omega) hL hti hg (hP _ h.rule _ hg) (hthr t htm hul hg) e with hx | ⟨_, hx⟩
          · exact absurd hx hadd
          · exact hx
        · exact hthr u (hbase' u hu) hul hg
      · simp only; rw [slips_middle, hsl]; exact htot
  | fail st a b r ls todo lost =>
    have htm : (⟨⟨r, .locking ls todo⟩, lost⟩ : LThread Key) ∈ a ++ ⟨⟨r, .locking ls todo⟩, lost⟩ :: b := mem_middle.2 (.inl rfl)
    simp only [labelAmount, Int.zero_add] at hBT
    rw [lpends_middle] at hBT
    have hpt := pend_nonneg (h.base.threads _ htm)
    simp only at htot hthr
    rw [slips_middle] at htot hthr
    have hs1 : (⟨⟨r, .locking ls todo⟩, lost⟩ : LThread Key).slipped = false := by simp [LThread.slipped, Thread.okB]
    have hs2 : (⟨⟨r, .releasing ((sortedKeys r.kvs).filter (fun k => !todo.contains k)) .internal⟩, lost⟩ : LThread Key).slipped = false := by
      simp [LThread.slipped, Thread.okB]
    rw [hs1] at htot hthr
    refine ⟨hb, ⟨B, hI, ?_, ?_⟩, h.rule, ?_, ?_⟩
    · simp only; rw [lpends_middle]; simp only [pend] at hpt hBT ⊢; omega
    · intro u hu hul hg
      simp only; rw [slips_middle, hs2]
      rcases mem_middle.1 hu with rfl | hu
      · trivial
      · exact hthr u (mem_middle.2 (.inr hu)) hul hg
    · simp only; rw [slips_middle, hs2]; exact htot
    · intro u hu
      rcases mem_middle.1 hu with rfl | hu
      · exact h.amt ⟨⟨r, .locking ls todo⟩, lost⟩ htm
      · exact h.amt u (mem_middle.2 (.inr hu))
  | lose st a b t k ho hk =>
    have htm : t ∈ a ++ t :: b := mem_middle.2 (.inl rfl)
    simp only [labelAmount, Int.zero_add] at hBT
    rw [lpends_middle] at hBT
    simp only at htot hthr
    rw [slips_middle] at htot hthr
    have hs1 : t.slipped = false := by simp [LThread.slipped, open_not_ok ho]
    have hs2 : (⟨t.th, k :: t.lost⟩ : LThread Key).slipped = false := by simp [LThread.slipped, open_not_ok ho]
    rw [hs1] at htot hthr
    refine ⟨hb, ⟨B, hI, ?_, ?_⟩, h.rule, ?_, ?_⟩
    · simp only; rw [lpends_middle]; omega
    · intro u hu hul hg
      simp only; rw [slips_middle, hs2]
      rcases mem_middle.1 hu with rfl | hu
      · cases hul
      · exact hthr u (mem_middle.2 (.inr hu)) hul hg
    · simp only; rw [slips_middle, hs2]; exact htot
    · intro u hu
      rcases mem_middle.1 hu with rfl | hu
      · exact h.amt t htm
      · exact h.amt u (mem_middle.2 (.inr hu))
  | loseLate st a b r todo lost out k =>
    have htm : (⟨⟨r, .releasing todo out⟩, lost⟩ : LThread Key) ∈ a ++ ⟨⟨r, .releasing todo out⟩, lost⟩ :: b := mem_middle.2 (.inl rfl)
    simp only [labelAmount, Int.zero_add] at hBT
    rw [lpends_middle] at hBT
    simp only at htot hthr
    rw [slips_middle] at htot hthr
    have hs1 : (⟨⟨r, .releasing (todo.filter (fun x => x != k)) out⟩, lost⟩ : LThread Key).slipped = (⟨⟨r, .releasing todo out⟩, lost⟩ : LThread Key).slipped := by
      simp only [LThread.slipped]; cases out <;> rfl
    refine ⟨hb, ⟨B, hI, ?_, ?_⟩, h.rule, ?_, ?_⟩
    · simp only; rw [lpends_middle]; simp only [pend] at hBT ⊢; omega
    · intro u hu hul hg
      simp only; rw [slips_middle, hs1]
      rcases mem_middle.1 hu with rfl | hu
      · trivial
      · exact hthr u (mem_middle.2 (.inr hu)) hul hg
    · simp only; rw [slips_middle, hs1]; exact htot
    · intro u hu
      rcases mem_middle.1 hu with rfl | hu
      · exact h.amt ⟨⟨r, .releasing todo out⟩, lost⟩ htm
      · exact h.amt u (mem_middle.2 (.inr hu))

theorem GE.run {s s' : LSys Key} {ls : List (Label Key)} (hT : T < 2 ^ 63) (hL : L ≠ -1) (hne : keys ≠ []) (hM : L - 1 + m ≤ M)
    (hP : ∀ st, P st → ∀ k, agree keys kvs k = true → (keys, L) ∈ effective st.rules k)
    (hPr : ∀ st st', P st → st'.rules = st.rules → P st') (keeps : Op Key → Prop)
    (hK : ∀ op, keeps op → ∀ st, SInv st → P st → P (specStep st op).1)
    (hr : LRun s ls s') (h : GE keys kvs L m T M P s (labelsAmount ls)) (hv : ∀ l ∈ ls, ValidLabel l) (hq : ∀ l ∈ ls, Quiet keeps m l) :
    GE keys kvs L m T M P s' 0 := by
  induction hr with
  | nil => simpa [labelsAmount] using h
  | @cons s s1 s2 l ls hs _ ih =>
    have hv' : ∀ l ∈ ls, ValidLabel l := fun x hx => hv x (by simp [hx])
    refine ih (GE.step hT hL hne hM hP hPr keeps hK (l := l) ?_ (labelsAmount_nonneg hv') (hv l (by simp)) (hq l (by simp)) hs) hv' (fun x hx => hq x (by simp [hx]))
    simpa [labelsAmount] using h

end

/-! ### Every accepted increment is added, exactly once -/

/-- The invariant; `R` is what the remaining steps may bring. -/
structure CE (kvs : KVs Key) (V T : Int) (s : LSys Key) (R : Int) : Prop where
  base : LSysInv s
  lim : ∃ B, LInv s.st B ∧ B + lpends s.threads + R ≤ T
  val : valueAt (abs s.st).counters kvs = V + accepted kvs (s.threads.map (·.th))

theorem CE.step {kvs : KVs Key} {V T : Int} {s s' : LSys Key} {l : Label Key} {R : Int} (hT : T < 2 ^ 63) (hk : ValidKVs kvs)
    (h : CE kvs V T s (labelAmount l + R)) (hR : 0 ≤ R) (hv : ValidLabel l) (hq : ∀ op, l = .other op → OffCounter kvs op) (hs : LStep s l s') :
    CE kvs V T s' R := by
  obtain ⟨B, hI, hBT⟩ := h.lim
  have hpn := lpends_nonneg h.base.threads
  have hb := h.base.step hv hs
  have hval := h.val
  cases hs with
  | arrive r =>
    rename_i r
    refine ⟨hb, ⟨B, hI, ?_⟩, ?_⟩
    · simp only [labelAmount] at hBT
      have := lpends_middle [] s.threads ⟨⟨r, .start⟩, []⟩
      simp only [List.nil_append, pend] at this
      simp only; rw [this]; omega
    · rw [hval]
      have := accepted_middle kvs [] (s.threads.map (·.th)) ⟨r, .start⟩
      simp only [List.nil_append] at this
      simp only [List.map_cons]
      rw [this, accepted_one]
      simp [Thread.okB]
  | other s0 op st' out e =>
    simp only [labelAmount] at hBT
    obtain ⟨h1, h2⟩ := other_value hI hv.1 (by omega) e hk (hq op rfl)
    exact ⟨hb, ⟨B + amount op, h1, by simp only; omega⟩, by simp only; rw [h2, hval]⟩
  | move st a b t st' p hfree e =>
    have htm : t ∈ a ++ t :: b := mem_middle.2 (.inl rfl)
    have hti := h.base.threads t htm
    simp only [labelAmount, Int.zero_add] at hBT
    rw [lpends_middle] at hBT
    have hpab : 0 ≤ lpends (a ++ b) := lpends_nonneg (fun u hu => h.base.threads u (mem_middle.2 (.inr hu)))
    have hpt := pend_nonneg hti
    simp only [List.map_append, List.map_cons] at hval
    rw [accepted_middle, accepted_one] at hval
    by_cases hadd : ∃ b', t.th.phase = .adding b'
    · obtain ⟨b', hb'⟩ := hadd
      have hpc : pend t.th = t.th.req.c := by unfold pend; rw [hb']
      obtain ⟨st1, e1, h1, hx⟩ := add_value hI hti.kvs hti.typed hti.pos (by omega)
      have e' : LimConc.advance st t.th = some (st', p) := e
      unfold LimConc.advance at e'
      rw [hb'] at e'
      simp only at e' e1
      rw [e1] at e'
      simp only [Option.map_some, Option.some.injEq, Prod.mk.injEq] at e'
      obtain ⟨rfl, rfl⟩ := e'
      have hpp : pend ⟨t.th.req, if b' = true then Phase.releasing (sortedKeys t.th.req.kvs) Out.ok else Phase.done Out.ok⟩ = 0 := by
        cases b' <;> rfl
      have hok : (⟨t.th.req, if b' = true then Phase.releasing (sortedKeys t.th.req.kvs) Out.ok else Phase.done Out.ok⟩ : Thread Key).okB = true := by
        cases b' <;> rfl
      have hno : t.th.okB = false := by unfold Thread.okB; rw [hb']
      refine ⟨hb, ⟨B + t.th.req.c, h1, ?_⟩, ?_⟩
      · simp only; rw [lpends_middle, hpp]; omega
      · simp only [List.map_append, List.map_cons]
        rw [hx kvs hk, accepted_middle, accepted_one, hok]
        rw [hno] at hval
        simp only [Bool.false_and, Bool.true_and, Bool.false_eq_true, if_false] at hval ⊢
        show valueAt (abs st).counters kvs + _ = _
        rw [hval]; omega
    · obtain ⟨rfl, h1, h2⟩ := advance_not_adding (fun b' hb' => hadd ⟨b', hb'⟩) e
      have h1' : ({ req := t.th.req, phase := p } : Thread Key).okB = t.th.okB := h1
      have h2' : pend (⟨t.th.req, p⟩ : Thread Key) ≤ max (pend t.th) 0 := h2
      refine ⟨hb, ⟨B, hI, ?_⟩, ?_⟩
      · simp only; rw [lpends_middle]; simp only; omega
      · simp only [List.map_append, List.map_cons]
        rw [accepted_middle, accepted_one, h1']; exact hval
  | fail st a b r ls todo lost =>
    have htm : (⟨⟨r, .locking ls todo⟩, lost⟩ : LThread Key) ∈ a ++ ⟨⟨r, .locking ls todo⟩, lost⟩ :: b := mem_middle.2 (.inl rfl)
    simp only [labelAmount, Int.zero_add] at hBT
    rw [lpends_middle] at hBT
    have hpt := pend_nonneg (h.base.threads _ htm)
    refine ⟨hb, ⟨B, hI, ?_⟩, ?_⟩
    · simp only; rw [lpends_middle]; simp only [pend] at hpt hBT ⊢; omega
    · simp only [List.map_append, List.map_cons] at hval ⊢
      rw [accepted_middle, accepted_one] at hval ⊢
      exact hval
  | lose st a b t k ho hk =>
    simp only [labelAmount, Int.zero_add] at hBT
    rw [lpends_middle] at hBT
    refine ⟨hb, ⟨B, hI, ?_⟩, ?_⟩
    · simp only; rw [lpends_middle]; omega
    · simp only [List.map_append, List.map_cons] at hval ⊢; exact hval
  | loseLate st a b r todo lost out k =>
    simp only [labelAmount, Int.zero_add] at hBT
    rw [lpends_middle] at hBT
    refine ⟨hb, ⟨B, hI, ?_⟩, ?_⟩
    · simp only; rw [lpends_middle]; simp only [pend] at hBT ⊢; omega
    · simp only [List.map_append, List.map_cons] at hval ⊢
      rw [accepted_middle, accepted_one] at hval ⊢
      have : ({ req := r, phase := .releasing (todo.filter (fun x => x != k)) out } : Thread Key).okB = ({ req := r, phase := .releasing todo out } : Thread Key).okB := by
        cases out <;> rfl
      rw [this]; exact hval

theorem CE.run {kvs : KVs Key} {V T : Int} {s s' : LSys Key} {ls : List (Label Key)} (hT : T < 2 ^ 63) (hk : ValidKVs kvs)
    (hr : LRun s ls s') (h : CE kvs V T s (labelsAmount ls)) (hv : ∀ l ∈ ls, ValidLabel l) (hq : ∀ op, .other op ∈ ls → OffCounter kvs op) :
    CE kvs V T s' 0 := by
  induction hr with
  | nil => simpa [labelsAmount] using h
  | @cons s s1 s2 l ls hs _ ih =>
    have hv' : ∀ l ∈ ls, ValidLabel l := fun x hx => hv x (by simp [hx])
    refine ih (CE.step hT hk (l := l) ?_ (labelsAmount_nonneg hv') (hv l (by simp)) (fun op e => hq op (by simp [e])) hs) hv' (fun x hx => hq x (by simp [hx]))
    simpa [labelsAmount] using h

end Willow.LimLease
