import Verif.Model.LocksQuery
import Verif.Props.Locker
/-
Property C74: querying locks.
-/
namespace Willow.Props
open Willow.Locker Willow.LockerSpec

variable {K : Type} [DecidableEq K]

/-- The clients that hold or wait for the lock: one for a live session, and those that wait. -/
def clients (s : St) (l : LockId) : Nat := (live s.tr).length + s.threads.countP (waitsFor l)

theorem report_true {acc : Int → Prop} {g : Locker K} (h : LReach acc g) {k : K} {r : Report K} (hr : r ∈ visit k (g k)) :
    r.keys = k ∧ (g k).tree = some r.lockId ∧ r.session.toList = live (g k).tr ∧
      ((g k).down = false → r.session ≠ none → r.count = clients (g k) r.lockId ∧ r.count ≠ 0) := by
  have gd := good_of_reach (h.proj k)
  unfold visit at hr
  cases ht : (g k).tree with
  | none => rw [ht] at hr; simp at hr
  | some l =>
    rw [ht] at hr
    simp only [Option.map_some, Option.toList_some, List.mem_singleton] at hr
    subst hr
    refine ⟨rfl, rfl, ?_, ?_⟩
    · rw [gd.lv, liveSt_eq, ht, liveOf_some]; rfl
    · intro hd hx
      have ha := waiting_alive gd hd ht
      have hc := gd.i1.cnt l (counted_of_up gd hd ht)
      have hs := (gd.i1.sess l hx).1
      have hh : hold ((g k).objs l).phase = 1 := by
        revert ha hs
        cases ((g k).objs l).phase <;> simp [alive, sessOk, hold]
        rename_i c; cases c <;> simp
      have e1 : waitsFor l = pend l := by funext t; cases t <;> rfl
      have hl : live (g k).tr = ((g k).objs l).session.toList := by rw [gd.lv, liveSt_eq, ht, liveOf_some]
      have hne : ((g k).objs l).session ≠ none := hx
      obtain ⟨x, hx'⟩ := Option.ne_none_iff_exists'.mp hne
      simp only [reportOf, clients, hl, hx', e1, Option.toList_some, List.length_singleton]
      omega

/-- Every lock in the answer to a query is real: in some state while the query ran, this lock existed for these key-values, the
reported session was its live session (none if nobody held it), and, unless the service was being stopped, the reported number
is that of the clients holding or waiting for it. -/
theorem C74_reports_are_true {acc : Int → Prop} {path : List (Locker K)} {ks : List K} {rs : List (Report K)}
    (h : ∀ g, path.head? = some g → LReach acc g) (hv : Visits acc path ks rs) {r : Report K} (hr : r ∈ rs) :
    r.keys ∈ ks ∧ ∃ m ∈ path, LReach acc m ∧ (m r.keys).tree = some r.lockId ∧
      r.session.toList = live (m r.keys).tr ∧
      ((m r.keys).down = false → r.session ≠ none → r.count = clients (m r.keys) r.lockId) := by
  induction hv with
  | done => simp at hr
  | other hs _ ih =>
    obtain ⟨a, m, b, c⟩ := ih (fun g e => by simp at e; subst e; exact .step (h _ rfl) hs) hr
    exact ⟨a, m, List.mem_cons_of_mem _ b, c⟩
  | @see g path k ks rs hrd hv ih =>
    rcases List.mem_append.mp hr with hr | hr
    · obtain ⟨e, ht, hl, hc⟩ := report_true (h g rfl) hr
      refine ⟨by simp [e], g, by simp, h g rfl, ?_⟩
      rw [e]
      exact ⟨ht, hl, fun a b => (hc a b).1⟩
    · obtain ⟨a, m, b, c⟩ := ih h hr
      exact ⟨List.mem_cons_of_mem _ a, m, b, c⟩

/-- No lock is left out: key-values the query selects that had a lock all the while are reported. -/
theorem C74_none_left_out {acc : Int → Prop} {path : List (Locker K)} {ks : List K} {rs : List (Report K)}
    (hv : Visits acc path ks rs) {k : K} (hk : k ∈ ks) (hl : ∀ m ∈ path, (m k).tree ≠ none) :
    ∃ r ∈ rs, r.keys = k := by
  induction hv with
  | done => simp at hk
  | other hs hv ih => exact ih hk fun m a => hl m (List.mem_cons_of_mem _ a)
  | @see g path k' ks rs hrd hv ih =>
    rcases List.mem_cons.mp hk with rfl | hk
    · obtain ⟨l, ht⟩ := Option.ne_none_iff_exists'.mp (hl g (by simp))
      exact ⟨reportOf k (g k) l, by simp [visit, ht], rfl⟩
    · obtain ⟨r, a, b⟩ := ih hk hl
      exact ⟨r, by simp [a], b⟩

/-- No lock is reported twice. -/
theorem C74_no_duplicates {acc : Int → Prop} {path : List (Locker K)} {ks : List K} {rs : List (Report K)}
    (h : ∀ g, path.head? = some g → LReach acc g) (hv : Visits acc path ks rs) (hk : ks.Nodup) :
    (rs.map Report.keys).Nodup := by
  induction hv with
  | done => simp
  | other hs _ ih => exact ih (fun g e => by simp at e; subst e; exact .step (h _ rfl) hs) hk
  | @see g path k ks rs hrd hv ih =>
    have hk' := List.nodup_cons.mp hk
    have := ih h hk'.2
    cases ht : (g k).tree with
    | none => simpa [visit, ht] using this
    | some l =>
      simp only [visit, ht, Option.map_some, Option.toList_some, List.cons_append, List.nil_append, List.map_cons]
      refine List.nodup_cons.mpr ⟨fun hm => ?_, this⟩
      obtain ⟨r, hr, e⟩ := List.mem_map.mp hm
      exact hk'.1 (by rw [← show r.keys = k from e]; exact (C74_reports_are_true h hv hr).1)

/-- The answer of a query nothing else runs beside. -/
def snapshot (g : Locker K) (ks : List K) : List (Report K) := ks.flatMap fun k => visit k (g k)

theorem snapshot_visits {acc : Int → Prop} {g : Locker K} {ks : List K} (h : ∀ k ∈ ks, readable (g k).threads) :
    Visits acc [g] ks (snapshot g ks) := by
  induction ks with
  | nil => exact .done g
  | cons k ks ih => exact .see (h k (by simp)) (ih fun k' hk' => h k' (by simp [hk']))

/-- When nothing else happens during the query, it is answered with 200 and all reports exactly when each of the selected locks has
a live session; otherwise the whole query fails with 500.  Missing for C74: the locks that nobody holds at the moment. -/
theorem C74_answered_iff_all_held_partial {acc : Int → Prop} {g : Locker K} (h : LReach acc g) (ks : List K)
    (hd : ∀ k ∈ ks, (g k).down = false) (hr : ∀ k ∈ ks, readable (g k).threads) :
    Visits acc [g] ks (snapshot g ks) ∧
    (queryAnswer g (snapshot g ks) = (200, snapshot g ks) ↔ ∀ k ∈ ks, (g k).tree ≠ none → live (g k).tr ≠ []) ∧
    (queryAnswer g (snapshot g ks) = (500, []) ↔ ∃ k ∈ ks, (g k).tree ≠ none ∧ live (g k).tr = []) := by
  have hval : validReports g (snapshot g ks) = true ↔ ∀ k ∈ ks, (g k).tree ≠ none → live (g k).tr ≠ [] := by
    simp only [validReports, snapshot, List.all_eq_true, List.mem_flatMap]
    constructor
    · intro hv k hk ht
      obtain ⟨l, ht⟩ := Option.ne_none_iff_exists'.mp ht
      have hm : reportOf k (g k) l ∈ visit k (g k) := by simp [visit, ht]
      have h1 := hv _ ⟨k, hk, hm⟩
      obtain ⟨_, _, h2, _⟩ := report_true h hm
      rw [← h2]
      simp only [validState, Bool.and_eq_true] at h1
      have := h1.2.1
      cases hs : (reportOf k (g k) l).session with
      | none => rw [hs] at this; simp at this
      | some x => simp
    · rintro hv r ⟨k, hk, hm⟩
      obtain ⟨e, ht, h2, h3⟩ := report_true h hm
      have hne : r.session ≠ none := by
        intro hs
        rw [hs] at h2
        exact hv k hk (by rw [ht]; simp) h2.symm
      have h3' := (h3 (hd k hk) hne).2
      have hr' : r = reportOf k (g k) r.lockId := by simpa [visit, ht] using hm
      have hs : ((g k).objs r.lockId).session = r.session := by
        have := congrArg Report.session hr'; exact this.symm
      simp only [validProps, validState, e, hs, Bool.and_eq_true, Option.isSome_iff_ne_none, bne_iff_ne]
      exact ⟨hne, hne, h3'⟩
  refine ⟨snapshot_visits hr, ?_, ?_⟩
  · rw [← hval]; unfold queryAnswer
    split
    · simp_all
    · simp_all
  · unfold queryAnswer
    split
    · rename_i hv
      have := hval.mp hv
      simp only [Prod.mk.injEq, reduceCtorEq, false_and, false_iff, Nat.reduceEqDiff]
      rintro ⟨k, a, b, c⟩
      exact this k a b c
    · rename_i hv
      simp only [true_iff]
      refine Classical.byContradiction fun hn => hv (hval.mpr fun k a b c => hn ⟨k, a, b, c⟩)

/-! ### Example -/

/-- A client asked for the lock of other key-values and has not got it yet. -/
def exAsked : St := { (({} : St).upd 0 { phase := .outer, count := 1 }).thr [.waiting 0 5] with tree := some 0, next := 1 }

/-- Two locks: `true` is held by session 7 with another client waiting, `false` was just asked for. -/
def exTwo : Locker Bool := fun k => if k then exHeld else exAsked

theorem lreach_one {acc : Int → Prop} {g : Locker K} (h : LReach acc g) (k : K) {s : St} (hr : Reach acc (g k) s)
    (hf : ∀ k', k' ≠ k → (g k').tr = []) : LReach acc (fun i => if i = k then s else g i) := by
  induction hr with
  | refl =>
    have e : (fun i => if i = k then g k else g i) = g := by
      funext i; split
      · rename_i e; rw [e]
      · rfl
    rw [e]; exact h
  | @step a b hr hs ih =>
    have hs' : Step acc ((fun i => if i = k then a else g i) k) b := by simpa using hs
    have := LStep.mk (acc := acc) (fun i => if i = k then a else g i) k b hs' (fun l x he k' => by
      by_cases hk : k' = k
      · rw [if_pos hk]; exact (grant_fresh hs (by simpa using he)).1
      · rw [if_neg hk, hf k' hk]; intro l s' h; cases h)
    have e : (fun i => if i = k then b else (fun i => if i = k then a else g i) i) = (fun i => if i = k then b else g i) := by
      funext i; dsimp only; split <;> rfl
    rw [e] at this
    exact .step ih this

theorem exTwo_reach : LReach posT exTwo := by
  have h0 : LReach (K := Bool) posT (fun _ => {}) := .init
  have h1 := lreach_one h0 false (s := exAsked) (.step .refl (.obtainCreate {} 5 (by decide) rfl (by decide))) (fun _ _ => rfl)
  have h2 := lreach_one h1 true (s := exHeld) exHeld_reach (fun k' hk => by cases k' <;> simp_all [exAsked, St.upd, St.thr])
  exact (show (fun i : Bool => if i = true then exHeld else if i = false then exAsked else {}) = exTwo by
    funext i; cases i <;> rfl) ▸ h2

/-- The held lock alone is reported with its session and its two clients. -/
example : LReach posT exTwo ∧ (∀ k, (exTwo k).down = false) ∧ (∀ k, readable (exTwo k).threads) ∧
    snapshot exTwo [true] = [{ keys := true, lockId := 0, session := some 7, count := 2 }] ∧
    (queryAnswer exTwo (snapshot exTwo [true])).1 = 200 ∧ clients (exTwo true) 0 = 2 :=
  ⟨exTwo_reach, by decide, by decide, rfl, rfl, rfl⟩

/-- A single lock that nobody has got yet makes the whole query fail, also for the lock that is held: the answer is 500 without any
lock. -/
theorem C74_violated_free_lock_fails_query :
    LReach posT exTwo ∧ (∀ k, (exTwo k).down = false ∧ (exTwo k).tree ≠ none) ∧ live (exTwo true).tr = [7] ∧
      Visits posT [exTwo] [true, false] (snapshot exTwo [true, false]) ∧
      queryAnswer exTwo (snapshot exTwo [true, false]) = (500, []) :=
  ⟨exTwo_reach, by decide, rfl, snapshot_visits (by decide), rfl⟩

/-- What the service goes through when the holder releases the lock after the visit. -/
def exReleasing : List (Locker Unit) :=
  let s1 := exHeld.thr [.relFound 0 7, .waiting 0 9]
  let s2 := s1.thr [.relIn 0 7, .waiting 0 9]
  let s3 := ((s2.upd 0 (release (s2.objs 0) 7)).thr [.relResp 0 7, .waiting 0 9]).log (.released 0 7)
  [fun _ => exHeld, fun _ => s1, fun _ => s2, fun _ => s3]

theorem exReleasing_visits :
    Visits posT exReleasing [()] [{ keys := (), lockId := 0, session := some 7, count := 2 }] := by
  have up : ∀ {a b : St}, Step posT a b → LStep posT (fun _ : Unit => a) (fun _ => b) := by
    intro a b hs
    have := LStep.mk (K := Unit) (acc := posT) (fun _ => a) () b hs (fun l x he _ => (grant_fresh hs he).1)
    simpa using this
  refine Visits.see (rs := []) (by decide) ?_
  refine .other (up (.relLookup _ 0 7 (by decide) rfl)) ?_
  refine .other (up (.relEnter _ [] [.waiting 0 9] 0 7 0 rfl (by decide) rfl)) ?_
  refine .other (up (.relSend _ [] [.waiting 0 9] 0 7 rfl rfl)) ?_
  exact .done _

/-- A query during which the lock it reports is released. -/
example : (∀ g, exReleasing.head? = some g → LReach posT g) ∧ (∀ m ∈ exReleasing, (m ()).tree ≠ none) ∧
    Visits posT exReleasing [()] [{ keys := (), lockId := 0, session := some 7, count := 2 }] := by
  refine ⟨fun g e => ?_, by simp [exReleasing, exHeld, St.upd, St.thr, St.log], exReleasing_visits⟩
  cases e
  exact lreach_of_reach exHeld_reach

/-- Even a lock that is held when the query sees it can make the query fail: the timeout in the answer is read later, and it is 0 when
the lock was released in between. -/
theorem C74_violated_release_after_visit :
    LReach posT (fun _ : Unit => exHeld) ∧ live exHeld.tr = [7] ∧ exReleasing.head? = some (fun _ => exHeld) ∧
      Visits posT exReleasing [()] [{ keys := (), lockId := 0, session := some 7, count := 2 }] ∧
      ∃ g, exReleasing.getLast? = some g ∧
        queryAnswer g [{ keys := (), lockId := 0, session := some 7, count := 2 }] = (500, []) :=
  ⟨lreach_of_reach exHeld_reach, rfl, rfl, exReleasing_visits, _, rfl, rfl⟩

end Willow.Props
