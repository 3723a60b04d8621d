import Verif.Proofs.SharedLockHang
import Verif.Props.AssocConc
/-! Lock clients shared by goroutines: what ObtainLock returns. -/
namespace Willow.SharedLock
open Willow.AssocConc (KVs Call Phase Thread Res callsOf rets)

variable {V : Type}

/-- The calls of a run and their results are those of its threads. -/
theorem returned_rets {A : Type} [DecidableEq V] [Inhabited V] {blocks : (Nat → Option (AssocConc.Item V A)) → Nat → Nat → Bool} {evs : List (AssocConc.Event V A)} {s : AssocConc.St V A}
    (h : AssocConc.Run blocks AssocConc.St.init evs s) :
    s.threads.map (·.call) = callsOf evs ∧ ∀ (t : Nat) (th : Thread V A), s.threads[t]? = some th → th.returned = true → ∃ r kept, th.phase = .done r kept ∧ (t, r) ∈ rets evs := by
  generalize h0 : (AssocConc.St.init : AssocConc.St V A) = s0 at h
  induction h with
  | nil => subst h0; simp [AssocConc.St.init, callsOf]
  | @step s' s'' evs e h' hstep ih =>
    obtain ⟨i1, i2⟩ := ih
    rw [AssocConc.callsOf_append, Props.AC.rets_append]
    cases hstep with
    | call c hok =>
      refine ⟨by simp [callsOf, i1], ?_⟩
      intro t th ht hr
      rcases AssocConc.append_cases ht with ⟨_, e⟩ | ht
      · subst e; cases hr
      · obtain ⟨r, k, h1, h⟩ := i2 t th ht hr; exact ⟨r, k, h1, List.mem_append_left _ h⟩
    | go t pick th ht hn =>
      obtain ⟨p', hp', _⟩ := AssocConc.next_closer hn
      have map_set : (s'.threads.set t { th with phase := p' }).map (·.call) = s'.threads.map (·.call) := by
        apply List.ext_getElem?
        intro j
        rw [List.getElem?_map, List.getElem?_map, AssocConc.set_get ht]
        split
        next e => subst e; rw [ht]; rfl
        · rfl
      refine ⟨by simp [callsOf, i1, hp', map_set], ?_⟩
      intro u x hu hr
      rw [hp'] at hu
      by_cases hut : u = t
      · subst hut
        rw [AssocConc.set_get ht, if_pos rfl] at hu
        cases hu
        obtain ⟨r, k, h1, h⟩ := i2 u th ht hr
        unfold AssocConc.next at hn
        rw [h1] at hn
        cases hn
      · rw [AssocConc.set_get ht, if_neg hut] at hu
        obtain ⟨r, k, h1, h⟩ := i2 u x hu hr; exact ⟨r, k, h1, List.mem_append_left _ h⟩
    | ret t th r kept ht hr hp =>
      have map_set : (s'.threads.set t { th with returned := true }).map (·.call) = s'.threads.map (·.call) := by
        apply List.ext_getElem?
        intro j
        rw [List.getElem?_map, List.getElem?_map, AssocConc.set_get ht]
        split
        next e => subst e; rw [ht]; rfl
        · rfl
      refine ⟨by simp [callsOf, i1, map_set], ?_⟩
      intro u x hu hr'
      simp only at hu
      by_cases hut : u = t
      · subst hut
        rw [AssocConc.set_get ht, if_pos rfl] at hu
        cases hu
        exact ⟨r, kept, hp, List.mem_append_right _ (by simp [rets])⟩
      · rw [AssocConc.set_get ht, if_neg hut] at hu
        obtain ⟨r, k, h1, h⟩ := i2 u x hu hr'; exact ⟨r, k, h1, List.mem_append_left _ h⟩

/-- Without cancelled calls, a returned ObtainLock gives a lock for its key-values. -/
theorem obtain_gives [DecidableEq V] [Inhabited V] {s : Sys V} {c t : Nat} {th : Thread V Nat} {kvs : KVs V} {a : Nat} (hp : Proj true s) (hi : TInv (s.tree c)) (ht : (s.tree c).threads[t]? = some th)
    (hc : th.call = .createOrFind kvs a) (hr : th.returned = true) : ∃ o, gives t th = some o ∧ Made (s.tree c) o kvs := by
  obtain ⟨evs, h1, h2⟩ := hp c
  have hcr : ∀ k ∈ callsOf evs, k.creates = true := fun k hk => (h2 k (AssocConc.mem_callsOf.1 hk)).2.2 rfl
  obtain ⟨r1, r2⟩ := returned_rets h1
  obtain ⟨r, kept, e, hm⟩ := r2 t th ht hr
  have hplain := Props.C86_answers free evs _ h1 hcr t r hm
  have hf := (hi.fwd t th kvs a ht hc).2
  rw [e] at hf
  unfold gives
  rw [if_pos hr, e]
  cases r with
  | created id => exact ⟨t, rfl, th, id, ht, by rw [hc, hi.named t th kvs a ht hc], by rw [e]; rfl⟩
  | found id b =>
    refine ⟨b, rfl, ?_⟩
    have hcall : (callsOf evs)[t]? = some th.call := by rw [← r1, List.getElem?_map, ht]; rfl
    have hask := Props.C86_found_was_created free evs _ h1 hcr t id b th.call hcall hm
    rw [hc] at hask
    have hmem : Call.createOrFind kvs b ∈ callsOf evs := by
      rcases hask with h | h
      · rw [← r1, List.mem_map] at h
        obtain ⟨x, hx, ex⟩ := h
        obtain ⟨u, hu⟩ := List.mem_iff_getElem?.1 hx
        exact absurd ex ((hi.calls u x hu).2 _ _)
      · exact h
    rw [← r1, List.mem_map] at hmem
    obtain ⟨x, hx, ex⟩ := hmem
    obtain ⟨u, hu⟩ := List.mem_iff_getElem?.1 hx
    have hub := hi.named u x kvs b hu ex
    obtain ⟨kvs', y, i, hy, hy1, hy2⟩ := hi.found t th id b ht (by rw [e]; rfl)
    subst hub
    rw [hu] at hy
    cases hy
    exact ⟨x, i, hu, ex, hy2⟩
  | neither id => cases hplain
  | _ => cases hf

end Willow.SharedLock
