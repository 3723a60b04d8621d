import Verif.Proofs.LockerServe
import Verif.Props.Locker
/-
Property C96: every client that waits for a lock gets it.
-/
namespace Willow.Props
open Willow.Locker Willow.LockerSpec

/-! ### Example run: one client holds the lock and never comes back, one waits -/

theorem serve_of {acc : Int → Prop} {s0 s s' : St} (h : Served acc s0 s) (hs : Step acc s s') (h1 : asked s' = asked s) (h2 : disconnected s' = disconnected s)
    (h3 : s'.down = false) (h4 : s'.threads ≠ s.threads) : Served acc s0 s' := .step h ⟨⟨⟨hs, h1, ne_threads h4⟩, h2⟩, h3⟩

/-- The time of the first session runs out and the lock is free again. -/
def exServe1 : St :=
  let s1 := ((exHeld.upd 0 (tick (exHeld.objs 0))).thr [.toWant 0, .waiting 0 9]).log (.expired 0 (some 7))
  let s2 := s1.thr [.toIn 0, .waiting 0 9]
  let s3 := (s2.upd 0 (timedOut (s2.objs 0))).thr [.toResp 0, .waiting 0 9]
  (((s3.upd 0 { s3.objs 0 with phase := .outer }).thr [.waiting 0 9]).drop false).log (.timeoutDone 0 false)

theorem exServe1_served : Served posT exHeld exServe1 :=
  serve_of (serve_of (serve_of (serve_of (.refl _)
    (.tick exHeld 0 rfl rfl) rfl rfl rfl (by decide))
    (.toEnter _ [] [.waiting 0 9] 0 0 rfl (by decide) rfl) rfl rfl rfl (by decide))
    (.toSend _ [] [.waiting 0 9] 0 rfl rfl) rfl rfl rfl (by decide))
    (.toAnswer _ [] [.waiting 0 9] 0 false rfl rfl) rfl rfl rfl (by decide)

/-- The other client gets the lock; its time runs out too. -/
def exServe2 : St :=
  let s1 := (exServe1.upd 0 { exServe1.objs 0 with phase := .claiming }).thr [.claimed 0 9]
  let s2 := ((s1.upd 0 (claim (s1.objs 0) 8 9)).thr []).log (.granted 0 8)
  let s3 := ((s2.upd 0 (tick (s2.objs 0))).thr [.toWant 0]).log (.expired 0 (some 8))
  let s4 := s3.thr [.toIn 0]
  let s5 := (s4.upd 0 (timedOut (s4.objs 0))).thr [.toResp 0]
  (((s5.upd 0 { s5.objs 0 with phase := .exited }).thr []).drop true).log (.timeoutDone 0 true)

theorem exServe2_served : Served posT exHeld exServe2 :=
  serve_of (serve_of (serve_of (serve_of (serve_of (serve_of exServe1_served
    (.claimSend _ [] [] 0 9 rfl rfl) rfl rfl rfl (by decide))
    (.claimDone _ [] [] 0 9 8 rfl rfl (by
      intro l x h
      rcases List.mem_cons.1 h with h | h
      · cases h
      · rcases List.mem_cons.1 h with h | h
        · cases h
        · rcases List.mem_cons.1 h with h | h
          · cases h; decide
          · cases h)) rfl rfl rfl (by decide))
    (.tick _ 0 rfl rfl) rfl rfl rfl (by decide))
    (.toEnter _ [] [] 0 0 rfl (by decide) rfl) rfl rfl rfl (by decide))
    (.toSend _ [] [] 0 rfl rfl) rfl rfl rfl (by decide))
    (.toAnswer _ [] [] 0 true rfl rfl) rfl rfl rfl (by decide)

/-! ### C96 -/

/-- As long as no new request arrives (and a heartbeat is one), the running service does only a bounded number of things, whatever the schedule and
whichever clients go away: nothing goes on for ever. -/
theorem C96_bounded {acc : Int → Prop} {s : St} (hr : Reach acc {} s) (hd : s.down = false) : ∃ n, ∀ k, Path (Moves acc) s k → k ≤ n :=
  ⟨mu s, fun _ h => moves_path (good_of_reach hr) hd h⟩

example : Reach posT {} exHeld ∧ exHeld.down = false ∧ ∃ s, Moves posT exHeld s :=
  ⟨exHeld_reach, rfl, _, ⟨.tick exHeld 0 rfl rfl, rfl, ne_threads (by decide)⟩, rfl⟩

/-- When it does nothing any more, every request was answered, nobody holds the lock and it is removed; or a request that came too late hangs together
with a client that wants to leave (C30).  There is no other way to hang. -/
theorem C96_served_or_stale {acc : Int → Prop} (hpos : ∀ t, acc t → 0 < t) {s : St} (hr : Reach acc {} s) (hd : s.down = false)
    (hb : ∀ s', ¬ Serves acc s s') : AllServed s ∨ Stale s := serve_blocked hpos hr hd hb

example : ∃ s, Served posT exHeld s ∧ Reach posT {} s ∧ s.down = false ∧ ∀ s', ¬ Serves posT s s' := by
  obtain ⟨s, hw, hb⟩ := served_end (acc := posT) (mu exHeld) exHeld (Nat.le_refl _) exHeld_reach rfl
  obtain ⟨a, b, -⟩ := served_facts exHeld_reach rfl hw
  exact ⟨s, hw, a, b, hb⟩

/-- If no client is going away, then whatever the schedule, in the end every client that waited was granted the lock, every request was answered, nobody
holds the lock and it is removed; also if heartbeats and releases, late or not, are under way.  Missing for C96: clients that go away (`C96_violated_stale`). -/
theorem C96_all_served_partial {acc : Int → Prop} (hpos : ∀ t, acc t → 0 < t) {s : St} (hr : Reach acc {} s) (hd : s.down = false)
    (hg : ∀ t ∈ s.threads, isGone t = false) :
    (∃ s', Served acc s s' ∧ ∀ s'', ¬ Serves acc s' s'') ∧
    ∀ s', Served acc s s' → (∀ s'', ¬ Serves acc s' s'') →
      AllServed s' ∧ answers s' = asked s ∧ (grants s'.tr).length = (grants s.tr).length + wanting s := by
  refine ⟨served_end (mu s) s (Nat.le_refl _) hr hd, fun s' hw hb => ?_⟩
  obtain ⟨a, b, c, d, e⟩ := served_facts hr hd hw
  rcases serve_blocked hpos a b hb with h | ⟨l, -, -, ⟨t, hm, ht⟩, -⟩
  · refine ⟨h, ?_, ?_⟩
    · rw [← c, asked, unanswered, h.1]; simp
    · rw [wanting, h.1] at d; simp at d; omega
  · rw [e hg t hm] at ht; cases ht

example : Reach posT {} exHeld ∧ exHeld.down = false ∧ (∀ t ∈ exHeld.threads, isGone t = false) ∧ wanting exHeld = 1 ∧
    Served posT exHeld exServe2 ∧ AllServed exServe2 ∧ grants exServe2.tr = [8, 7] :=
  ⟨exHeld_reach, rfl, by decide, rfl, exServe2_served, ⟨rfl, rfl, rfl⟩, rfl⟩

/-- On the way no client that waits is turned away: each is still waiting or has been granted the lock. -/
theorem C96_nobody_turned_away {acc : Int → Prop} {s s' : St} (hr : Reach acc {} s) (hd : s.down = false) (h : Served acc s s') :
    wanting s' + (grants s'.tr).length = wanting s + (grants s.tr).length := (served_facts hr hd h).2.2.2.1

example : Served posT exHeld exServe1 ∧ wanting exServe1 = 1 ∧ grants exServe1.tr = [7] := ⟨exServe1_served, rfl, rfl⟩

/-- A client that goes away after a late release of the lock was taken up: it is never answered, and the lock is never free again, whatever happens. -/
theorem C96_violated_stale : ∃ s, Reach posT {} s ∧ s.down = false ∧ Stale s ∧ unanswered s = 2 ∧
    ∀ s', Reach posT s s' → s'.tr = s.tr ∧ s'.threads = s.threads ∧ s'.tree = some 0 := by
  obtain ⟨h1, h2, h3, -, h4⟩ := C30_violated_stale_release_blocks_for_ever
  exact ⟨exStuck, h1, h2, ⟨0, rfl, ⟨.relIn 0 7, by decide, rfl⟩, ⟨.leaving 0, by decide, rfl⟩, h3⟩, rfl, h4⟩

end Willow.Props
