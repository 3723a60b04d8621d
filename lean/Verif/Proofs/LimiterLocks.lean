import Verif.Spec.LimiterLocks
import Verif.Proofs.LimiterAny
/-! Concurrent increments: locks are exclusive and no set of increments blocks each other. -/
namespace Willow.LimConc
open Willow Willow.Assoc Willow.Spec Willow.OTM Willow.OTMSpec Willow.Limiter Willow.LimSpec KeyOps BTree

/-! ### Sorting -/

theorem insertKey_perm (k : GoString) : ∀ l, (insertKey k l).Perm (k :: l)
  | [] => .refl _
  | x :: l => by
    unfold insertKey
    split
    · exact ((insertKey_perm k l).cons x).trans (.swap k x l)
    · exact .refl _

theorem sortedKeys_perm {K : Type} (kvs : KVs K) : (sortedKeys kvs).Perm (kvs.map (·.1)) := by
  unfold sortedKeys
  generalize kvs.map (·.1) = l
  induction l with
  | nil => exact .refl _
  | cons x l ih => exact (insertKey_perm x _).trans (ih.cons x)

theorem strLt_asymm {a b : GoString} (h : strLt a b = true) : strLt b a = false := by
  cases h' : strLt b a
  · rfl
  · have := strLt_trans h h'; rw [strLt_irrefl] at this; cases this

theorem insertKey_sorted {k : GoString} : ∀ {l : List GoString}, l.Pairwise (fun a b => strLt a b = true) → k ∉ l →
    (insertKey k l).Pairwise (fun a b => strLt a b = true)
  | [], _, _ => by simp [insertKey]
  | x :: l, h, hk => by
    unfold insertKey
    rw [List.pairwise_cons] at h
    split
    · rename_i hx
      rw [List.pairwise_cons]
      refine ⟨?_, insertKey_sorted h.2 (fun hm => hk (by simp [hm]))⟩
      intro y hy
      rcases List.mem_cons.1 ((insertKey_perm k l).mem_iff.1 hy) with rfl | hy
      · exact hx
      · exact h.1 y hy
    · rename_i hx
      have hkx : strLt k x = true := by
        cases hc : strLt k x
        · exact absurd (strLt_total hc (by simpa using hx)) (fun e => hk (by simp [e]))
        · rfl
      rw [List.pairwise_cons, List.pairwise_cons]
      refine ⟨?_, h.1, h.2⟩
      intro y hy
      rcases List.mem_cons.1 hy with rfl | hy
      · exact hkx
      · exact strLt_trans hkx (h.1 y hy)

theorem sortedKeys_sorted {K : Type} {kvs : KVs K} (hv : ValidKVs kvs) : (sortedKeys kvs).Pairwise (fun a b => strLt a b = true) := by
  have h := hv.2
  unfold sortedKeys
  revert h
  generalize kvs.map (·.1) = l
  intro h
  induction l with
  | nil => simp
  | cons x l ih =>
    rw [List.nodup_cons] at h
    refine insertKey_sorted (ih h.2) ?_
    intro hm
    have hp : (l.foldr insertKey []).Perm l := by
      clear ih h hm
      induction l with
      | nil => exact .refl _
      | cons x l ih => exact (insertKey_perm x _).trans (ih.cons x)
    exact h.1 (hp.mem_iff.1 hm)

/-! ### Locks -/

theorem sameLock_symm (a b : GoString × Key) : sameLock a b = sameLock b a := by
  unfold sameLock
  rw [show (a.1 == b.1) = (b.1 == a.1) from BEq.comm]
  cases KeyOps.lt a.2 b.2 <;> cases KeyOps.lt b.2 a.2 <;> simp

/-- Two increments hold no common lock. -/
def Apart (a b : Thread Key) : Prop := ∀ x ∈ a.held, ∀ y ∈ b.held, sameLock x y = false

theorem Apart.symm {a b : Thread Key} (h : Apart a b) : Apart b a := fun x hx y hy => by rw [sameLock_symm]; exact h y hy x hx

theorem Apart.mono {a a' b : Thread Key} (h : Apart a b) (hs : ∀ x ∈ a'.held, x ∈ a.held) : Apart a' b := fun x hx y hy => h x (hs x hx) y hy

/-- Limits a counter can be checked against. -/
def LsOk (kvs : KVs Key) (ls : List (List GoString × Int)) : Prop := ∀ x ∈ ls, x.1 ≠ [] ∧ ∀ k ∈ x.1, ∃ v, valueOf kvs k = some v

/-- What holds of each increment. -/
structure TInv (t : Thread Key) : Prop where
  kvs : ValidKVs t.req.kvs
  typed : Typed t.req.kvs
  pos : 0 < t.req.c
  choice : ValidChoice t.req.ch
  phase : match t.phase with
    | .locking ls todo => LsOk t.req.kvs ls ∧ ∃ pre, sortedKeys t.req.kvs = pre ++ todo
    | .checking ls => LsOk t.req.kvs ls
    | .summing _ rest _ _ => LsOk t.req.kvs rest
    | _ => True

/-- What holds of the system. -/
structure SysInv (s : Sys Key) : Prop where
  lim : RInv s.st
  threads : ∀ t ∈ s.threads, TInv t
  apart : s.threads.Pairwise Apart

theorem pairwise_middle {A : Type} {R : A → A → Prop} (hs : ∀ {a b}, R a b → R b a) {a b : List A} {t : A} :
    (a ++ t :: b).Pairwise R ↔ (∀ u ∈ a ++ b, R t u) ∧ (a ++ b).Pairwise R := by
  rw [List.perm_middle.pairwise_iff hs, List.pairwise_cons]

theorem mem_middle {A : Type} {a b : List A} {t x : A} : x ∈ a ++ t :: b ↔ x = t ∨ x ∈ a ++ b := by
  simp only [List.mem_append, List.mem_cons]; grind

theorem SysInv.replace {st st' : State Key} {a b : List (Thread Key)} {t t' : Thread Key} (h : SysInv ⟨st, a ++ t :: b⟩) (hl : RInv st')
    (ht : TInv t') (hap : ∀ u ∈ a ++ b, Apart t' u) : SysInv ⟨st', a ++ t' :: b⟩ := by
  refine ⟨hl, ?_, ?_⟩
  · intro x hx
    rcases mem_middle.1 hx with rfl | hx
    · exact ht
    · exact h.threads x (mem_middle.2 (.inr hx))
  · rw [pairwise_middle Apart.symm]
    exact ⟨hap, ((pairwise_middle Apart.symm).1 h.apart).2⟩

theorem limits_ok {st : State Key} (h : RInv st) {kvs : KVs Key} {ls : List (List GoString × Int)} (hs : ∀ x ∈ ls, x ∈ effective (abs st).rules kvs) : LsOk kvs ls :=
  fun x hx => ⟨(effective_mem h (hs x hx)).1, (effective_mem h (hs x hx)).2.1⟩

/-- The query of a check never panics. -/
theorem checkQuery_some {st : State Key} (h : RInv st) {r : Req Key} (hv : ValidKVs r.kvs) (ht : Typed r.kvs) {keys : List GoString} (hne : keys ≠ [])
    (hk : ∀ k ∈ keys, ∃ v, valueOf r.kvs k = some v) :
    ∃ l, st.counters.queryAction (checkQuery keys r.kvs) = some l ∧ l.Perm (st.counters.items.filter (fun i => agree keys r.kvs i.kvs)) := by
  obtain ⟨l, e, hp⟩ := queryAction_spec h.cinv (checkQuery_ok hv hne hk) (.inr (by simp [Asks, checkQuery]))
  have hf : st.counters.items.filter (satisfies (checkQuery keys r.kvs)) = st.counters.items.filter (fun i => agree keys r.kvs i.kvs) :=
    List.filter_congr (fun i _ => satisfies_check hv ht hk i)
  rw [hf] at hp
  exact ⟨l, e, hp⟩

/-- An increment that is not finished never panics. -/
theorem advance_some {st : State Key} (h : RInv st) {t : Thread Key} (ht : TInv t) (hnd : ¬ t.finished) : ∃ r, advance st t = some r := by
  obtain ⟨⟨kvs, c, ch⟩, p⟩ := t
  have hv := ht.kvs; have hty := ht.typed; have hch := ht.choice; have hph := ht.phase
  cases p with
  | start =>
    obtain ⟨rs, e, _⟩ := findLimits_spec h hch hv hty
    simp only [advance, e, afterFind]
    split
    · exact ⟨_, rfl⟩
    · split <;> exact ⟨_, rfl⟩
  | locking ls todo => cases todo <;> exact ⟨_, rfl⟩
  | checking ls =>
    cases ls with
    | nil => exact ⟨_, rfl⟩
    | cons x ls =>
      obtain ⟨keys, limit⟩ := x
      simp only [advance, checkNext]
      split
      · exact ⟨_, rfl⟩
      · obtain ⟨h1, h2⟩ := hph (keys, limit) (by simp)
        obtain ⟨l, e, _⟩ := checkQuery_some h (r := ⟨kvs, c, ch⟩) hv hty h1 h2
        simp only at e
        rw [e]; exact ⟨_, rfl⟩
  | summing limit rest ids acc => exact ⟨_, rfl⟩
  | adding b =>
    obtain ⟨st', e, _⟩ := add_any h hv hty c
    simp only [advance, e]; exact ⟨_, rfl⟩
  | releasing todo out => cases todo <;> exact ⟨_, rfl⟩
  | done out => exact absurd ⟨out, rfl⟩ hnd

/-- A step of an increment keeps what holds of it; the only lock it can newly hold is the one it asked for. -/
theorem advance_inv {st : State Key} (h : RInv st) {t : Thread Key} (ht : TInv t) {st' : State Key} {p : Phase Key} (e : advance st t = some (st', p)) :
    RInv st' ∧ TInv { t with phase := p } ∧ ∀ x ∈ ({ t with phase := p } : Thread Key).held, x ∈ t.held ∨ x ∈ t.wants := by
  obtain ⟨⟨kvs, c, ch⟩, p0⟩ := t
  have hv := ht.kvs; have hty := ht.typed; have hch := ht.choice; have hph := ht.phase; have hpos := ht.pos
  cases p0 with
  | start =>
    obtain ⟨rs, e1, hsub, _⟩ := findLimits_spec h hch hv hty
    simp only at e1
    simp only [advance, e1, afterFind] at e
    have hls := limits_ok h hsub
    split at e
    · cases e; exact ⟨h, ⟨hv, hty, hpos, hch, trivial⟩, by simp [Thread.held]⟩
    · split at e <;> cases e
      · refine ⟨h, ⟨hv, hty, hpos, hch, hls, [], rfl⟩, ?_⟩
        intro x hx
        simp only [Thread.held, List.mem_filter] at hx
        have : x.1 ∈ sortedKeys kvs := (sortedKeys_perm kvs).mem_iff.2 (List.mem_map.2 ⟨x, hx.1, rfl⟩)
        simp [this] at hx
      · exact ⟨h, ⟨hv, hty, hpos, hch, trivial⟩, by simp [Thread.held]⟩
  | locking ls todo =>
    obtain ⟨hls, pre, hpre⟩ := hph
    cases todo with
    | nil =>
      cases e
      refine ⟨h, ⟨hv, hty, hpos, hch, hls⟩, ?_⟩
      intro x hx; left; simpa [Thread.held] using hx
    | cons k todo =>
      cases e
      refine ⟨h, ⟨hv, hty, hpos, hch, hls, pre ++ [k], by simpa using hpre⟩, ?_⟩
      intro x hx
      simp only [Thread.held, Thread.wants, List.mem_filter, List.contains_cons, Bool.not_or, Bool.and_eq_true, beq_iff_eq] at hx ⊢
      by_cases hk : x.1 = k
      · right; exact ⟨hx.1, hk⟩
      · left; exact ⟨hx.1, by simp [hk], hx.2⟩
  | checking ls =>
    have hheld : ∀ (q : Phase Key), ({ req := ⟨kvs, c, ch⟩, phase := q } : Thread Key).held = kvs → ∀ x ∈ ({ req := ⟨kvs, c, ch⟩, phase := q } : Thread Key).held,
        x ∈ ({ req := ⟨kvs, c, ch⟩, phase := .checking ls } : Thread Key).held ∨ x ∈ ({ req := ⟨kvs, c, ch⟩, phase := .checking ls } : Thread Key).wants := by
      intro q hq x hx; left; rw [hq] at hx; exact hx
    cases ls with
    | nil => cases e; exact ⟨h, ⟨hv, hty, hpos, hch, trivial⟩, hheld _ rfl⟩
    | cons x ls =>
      obtain ⟨keys, limit⟩ := x
      have hl' : LsOk kvs ls := fun y hy => hph y (List.mem_cons_of_mem _ hy)
      simp only [advance, checkNext] at e
      split at e
      · cases e; exact ⟨h, ⟨hv, hty, hpos, hch, hl'⟩, hheld _ rfl⟩
      · split at e
        · cases e
        · cases e; exact ⟨h, ⟨hv, hty, hpos, hch, hl'⟩, hheld _ rfl⟩
  | summing limit rest ids acc =>
    have hrel : ∀ out, ∀ x ∈ ({ req := ⟨kvs, c, ch⟩, phase := .releasing (sortedKeys kvs) out } : Thread Key).held, x ∈ kvs := by
      intro out x hx; exact (List.mem_filter.1 hx).1
    cases ids with
    | nil =>
      simp only [advance, sumNext, Option.some.injEq, Prod.mk.injEq] at e
      obtain ⟨rfl, rfl⟩ := e
      refine ⟨h, ?_, ?_⟩
      · split <;> exact ⟨hv, hty, hpos, hch, by first | trivial | exact hph⟩
      · split
        · intro x hx; exact .inl (hrel _ x hx)
        · intro x hx; exact .inl hx
    | cons id ids =>
      simp only [advance, sumNext, Option.some.injEq, Prod.mk.injEq] at e
      obtain ⟨rfl, rfl⟩ := e
      refine ⟨h, ?_, ?_⟩
      · split
        · exact ⟨hv, hty, hpos, hch, hph⟩
        · split <;> exact ⟨hv, hty, hpos, hch, by first | trivial | exact hph⟩
      · split
        · intro x hx; exact .inl hx
        · split
          · intro x hx; exact .inl hx
          · intro x hx; exact .inl (hrel _ x hx)
  | adding b =>
    obtain ⟨st1, e1, hI, _⟩ := add_any h hv hty c
    simp only at e1
    simp only [advance, e1, Option.map_some, Option.some.injEq, Prod.mk.injEq] at e
    obtain ⟨rfl, rfl⟩ := e
    cases b
    · exact ⟨hI, ⟨hv, hty, hpos, hch, trivial⟩, by simp [Thread.held]⟩
    · refine ⟨hI, ⟨hv, hty, hpos, hch, trivial⟩, ?_⟩
      intro x hx; left; exact (List.mem_filter.1 hx).1
  | releasing todo out =>
    cases todo with
    | nil => cases e; exact ⟨h, ⟨hv, hty, hpos, hch, trivial⟩, by simp [Thread.held]⟩
    | cons k todo =>
      cases e
      refine ⟨h, ⟨hv, hty, hpos, hch, trivial⟩, ?_⟩
      intro x hx
      left
      simp only [Thread.held, List.mem_filter, List.contains_cons, Bool.or_eq_true] at hx ⊢
      exact ⟨hx.1, .inr hx.2⟩
  | done out => cases e

theorem SysInv.step {s s' : Sys Key} {l : Label Key} (h : SysInv s) (hv : ValidLabel l) (hs : Step s l s') : SysInv s' := by
  cases hs with
  | arrive r =>
    refine ⟨h.lim, ?_, ?_⟩
    · intro t ht
      rcases List.mem_cons.1 ht with rfl | ht
      · exact ⟨hv.1, hv.2.1, hv.2.2.1, hv.2.2.2.2, trivial⟩
      · exact h.threads t ht
    · rw [List.pairwise_cons]
      exact ⟨fun u _ x hx => by simp [Thread.held] at hx, h.apart⟩
  | other s0 op st' out e =>
    obtain ⟨st1, out1, e1, hI, _⟩ := any_step h.lim hv.1
    rw [e] at e1; cases e1
    exact ⟨hI, h.threads, h.apart⟩
  | move st a b t st' p hf e =>
    obtain ⟨h1, h2, h3⟩ := advance_inv h.lim (h.threads t (mem_middle.2 (.inl rfl))) e
    refine h.replace h1 h2 ?_
    intro u hu x hx y hy
    rcases h3 x hx with hx | hx
    · exact ((pairwise_middle Apart.symm).1 h.apart).1 u hu x hx y hy
    · exact hf x hx u (mem_middle.2 (.inr hu)) y hy
  | fail st a b r ls todo =>
    have ht := h.threads _ (mem_middle.2 (.inl rfl))
    refine h.replace h.lim ⟨ht.kvs, ht.typed, ht.pos, ht.choice, trivial⟩ ?_
    intro u hu
    refine (((pairwise_middle Apart.symm).1 h.apart).1 u hu).mono ?_
    intro x hx
    simp only [Thread.held, List.mem_filter] at hx ⊢
    refine ⟨hx.1, ?_⟩
    have := List.contains_iff_mem.1 hx.2
    exact (List.mem_filter.1 this).2

theorem SysInv.run {s s' : Sys Key} {ls : List (Label Key)} (h : SysInv s) (hv : ∀ l ∈ ls, ValidLabel l) (hr : Run s ls s') : SysInv s' := by
  induction hr with
  | nil => exact h
  | cons hs _ ih => exact ih (h.step (hv _ (by simp)) hs) (fun l hl => hv l (by simp [hl]))

/-! ### No overlap -/

theorem held_critical {t : Thread Key} (h : t.critical) : t.held = t.req.kvs := by
  obtain ⟨r, p⟩ := t
  cases p with
  | adding b => cases b <;> simp [Thread.critical] at h; rfl
  | checking _ => rfl
  | summing _ _ _ _ => rfl
  | _ => exact absurd h (by simp [Thread.critical])

theorem agree_sameLock {keys : List GoString} (hne : keys ≠ []) {a b : KVs Key} (h : agree keys a b = true) : ∃ x ∈ a, ∃ y ∈ b, sameLock x y = true := by
  obtain ⟨k, rest, rfl⟩ := List.exists_cons_of_ne_nil hne
  unfold agree at h
  rw [List.all_cons, Bool.and_eq_true] at h
  have h1 := h.1
  unfold valueOf at h1
  cases ha : a.find? (fun kv => kv.1 == k) with
  | none => rw [ha] at h1; simp at h1
  | some x =>
    cases hb : b.find? (fun kv => kv.1 == k) with
    | none => rw [ha, hb] at h1; simp at h1
    | some y =>
      rw [ha, hb] at h1
      refine ⟨x, List.mem_of_find?_eq_some ha, y, List.mem_of_find?_eq_some hb, ?_⟩
      have hxk := List.find?_some ha
      have hyk := List.find?_some hb
      simp only [beq_iff_eq] at hxk hyk
      simp only [Option.map_some, same] at h1
      simp only [sameLock, hxk, hyk, beq_self_eq_true, Bool.true_and]
      exact h1

theorem SysInv.exclusive {st : State Key} {a b : List (Thread Key)} {t u : Thread Key} (h : SysInv ⟨st, a ++ t :: b⟩) (hu : u ∈ a ++ b)
    (ht : t.critical) (huc : u.critical) {keys : List GoString} (hne : keys ≠ []) : agree keys t.req.kvs u.req.kvs = false := by
  cases hg : agree keys t.req.kvs u.req.kvs
  · rfl
  · obtain ⟨x, hx, y, hy, hl⟩ := agree_sameLock hne hg
    have := ((pairwise_middle Apart.symm).1 h.apart).1 u hu x (by rw [held_critical ht]; exact hx) y (by rw [held_critical huc]; exact hy)
    rw [hl] at this; cases this

/-! ### No deadlock -/

/-- The key of the lock an increment waits for. -/
def waitsOn (t : Thread Key) : Option GoString :=
  match t.phase with
  | .locking _ (k :: _) => some k
  | _ => none

theorem maxKey : ∀ (l : List GoString), l ≠ [] → ∃ m ∈ l, ∀ x ∈ l, strLt m x = false
  | [], h => absurd rfl h
  | [a], _ => ⟨a, by simp, by simp [strLt_irrefl]⟩
  | a :: b :: l, _ => by
    obtain ⟨m, hm, hx⟩ := maxKey (b :: l) (by simp)
    by_cases h : strLt m a = true
    · refine ⟨a, by simp, ?_⟩
      intro x hxm
      rcases List.mem_cons.1 hxm with rfl | hxm
      · exact strLt_irrefl _
      · cases hc : strLt a x
        · rfl
        · have := hx x hxm
          rw [strLt_trans h hc] at this; cases this
    · refine ⟨m, List.mem_cons_of_mem _ hm, ?_⟩
      intro x hxm
      rcases List.mem_cons.1 hxm with rfl | hxm
      · simpa using h
      · exact hx x hxm

theorem wants_waits {t : Thread Key} {l : GoString × Key} (h : l ∈ t.wants) : waitsOn t = some l.1 := by
  unfold Thread.wants at h
  unfold waitsOn
  split at h
  · rename_i e
    rw [e]
    have := (List.mem_filter.1 h).2
    simp only [beq_iff_eq] at this
    simp [this]
  · cases h

theorem progress_of {s : Sys Key} (hlim : RInv s.st) (hthr : ∀ t ∈ s.threads, TInv t) (hex : ∃ t ∈ s.threads, ¬ t.finished) :
    ∃ a t b st' p, s.threads = a ++ t :: b ∧ ¬ t.finished ∧ Free s.threads t ∧ advance s.st t = some (st', p) := by
  -- it is enough to find one increment that is not blocked
  have fin : ∀ t ∈ s.threads, ¬ t.finished → Free s.threads t →
      ∃ a t b st' p, s.threads = a ++ t :: b ∧ ¬ t.finished ∧ Free s.threads t ∧ advance s.st t = some (st', p) := by
    intro t ht hnd hf
    obtain ⟨a, b, e⟩ := List.append_of_mem ht
    obtain ⟨⟨st', p⟩, hr⟩ := advance_some hlim (hthr t ht) hnd
    exact ⟨a, t, b, st', p, e, hnd, hf, hr⟩
  apply Classical.byContradiction
  intro hno
  have hblocked : ∀ t ∈ s.threads, ¬ t.finished → ∃ l ∈ t.wants, ∃ u ∈ s.threads, ∃ x ∈ u.held, sameLock l x = true := by
    intro t ht hnd
    apply Classical.byContradiction
    intro hc
    apply hno
    refine fin t ht hnd ?_
    intro l hl u hu x hx
    cases hs : sameLock l x
    · rfl
    · exact absurd ⟨l, hl, u, hu, x, hx, hs⟩ hc
  obtain ⟨t0, ht0, hnd0⟩ := hex
  obtain ⟨l0, hl0, _⟩ := hblocked t0 ht0 hnd0
  -- the blocked increment waiting for the largest key
  obtain ⟨m, hm, hmax⟩ := maxKey (s.threads.filterMap waitsOn) (by
    intro e
    have : l0.1 ∈ s.threads.filterMap waitsOn := List.mem_filterMap.2 ⟨t0, ht0, wants_waits hl0⟩
    rw [e] at this; cases this)
  obtain ⟨t, ht, hw⟩ := List.mem_filterMap.1 hm
  have hnd : ¬ t.finished := by
    rintro ⟨out, e⟩; unfold waitsOn at hw; rw [e] at hw; cases hw
  obtain ⟨l, hl, u, hu, x, hx, hsl⟩ := hblocked t ht hnd
  have hlm : l.1 = m := by
    have := wants_waits hl; rw [hw] at this; cases this; rfl
  have hxm : x.1 = m := by
    unfold sameLock at hsl
    simp only [Bool.and_eq_true, beq_iff_eq] at hsl
    rw [← hsl.1.1, hlm]
  have hund : ¬ u.finished := by
    rintro ⟨out, e⟩; unfold Thread.held at hx; rw [e] at hx; cases hx
  obtain ⟨l', hl', _⟩ := hblocked u hu hund
  -- the holder waits for a key beyond all it holds
  have hph := (hthr u hu).phase
  have hwu := wants_waits hl'
  unfold waitsOn at hwu
  split at hwu
  · rename_i ls k todo e
    rw [e] at hph
    obtain ⟨_, pre, hpre⟩ := hph
    cases hwu
    unfold Thread.held at hx
    rw [e] at hx
    simp only [List.mem_filter] at hx
    have hmem : x.1 ∈ sortedKeys u.req.kvs := (sortedKeys_perm _).mem_iff.2 (List.mem_map.2 ⟨x, hx.1, rfl⟩)
    rw [hpre] at hmem
    have hsort := sortedKeys_sorted (hthr u hu).kvs
    rw [hpre, List.pairwise_append] at hsort
    rcases List.mem_append.1 hmem with hmem | hmem
    · have h1 := hsort.2.2 _ hmem l'.1 (by simp)
      have h2 := hmax l'.1 (List.mem_filterMap.2 ⟨u, hu, wants_waits hl'⟩)
      rw [hxm] at h1
      rw [h1] at h2; cases h2
    · have hn := hx.2
      simp only [Bool.not_eq_true', List.contains_eq_mem, decide_eq_false_iff_not] at hn
      exact hn hmem
  · cases hwu

theorem SysInv.progress {s : Sys Key} (h : SysInv s) (hex : ∃ t ∈ s.threads, ¬ t.finished) :
    ∃ a t b st' p, s.threads = a ++ t :: b ∧ ¬ t.finished ∧ Free s.threads t ∧ advance s.st t = some (st', p) := progress_of h.lim h.threads hex

end Willow.LimConc
