import Verif.Proofs.MatchConc
/-! Matches while nothing is removed: C90. -/
namespace Willow.MatchConc
open Willow.AssocConc (St Step Item Event Run Inv KVs Call Thread)

variable {V A : Type}

/-- The calls that remove something are over. -/
def Quiet (s : St V A) : Prop := ∀ (t : Nat) (th : Thread V A), s.threads[t]? = some th → th.call.removes = true → ∃ r kept, th.phase = .done r kept

/-- The calls so far, and that the phases of calls that have returned are over. -/
structure Hist (evs : List (Ev V A)) (s : St V A) : Prop where
  calls : s.threads.map Thread.call = others evs
  rets : ∀ t r, Ev.other (.ret t r) ∈ evs → ∃ (th : Thread V A) (r' : AssocConc.Res A) (kept : List Nat), s.threads[t]? = some th ∧ th.phase = .done r' kept

theorem Hist.init [Inhabited V] : Hist ([] : List (Ev V A)) St.init := ⟨rfl, fun _ _ h => by cases h⟩

theorem done_stays [DecidableEq V] {blocks : (Nat → Option (Item V A)) → Nat → Nat → Bool} {s s' : St V A} {e : Option (Event V A)} (hi : Inv s) (hs : Step blocks s e s') {t : Nat} {th : Thread V A}
    {r : AssocConc.Res A} {kept : List Nat} (h : s.threads[t]? = some th) (hp : th.phase = .done r kept) :
    ∃ th', s'.threads[t]? = some th' ∧ th'.call = th.call ∧ th'.phase = .done r kept := by
  cases hs with
  | call c hok => exact ⟨th, AssocConc.append_old h, rfl, hp⟩
  | go u pick x hu hn =>
    obtain ⟨p', hth, _⟩ := move_does (AssocConc.next_move hi hu hn)
    by_cases e : t = u
    · subst e
      rw [h] at hu; cases hu
      unfold AssocConc.next at hn
      rw [hp] at hn
      cases hn
    · exact ⟨th, by rw [hth, AssocConc.set_get hu, if_neg e]; exact h, rfl, hp⟩
  | ret u x r' kept' hu hr hp' =>
    by_cases e : t = u
    · subst e
      rw [h] at hu; cases hu
      exact ⟨_, AssocConc.set_self h _, rfl, hp⟩
    · exact ⟨th, AssocConc.set_other hu _ e h, rfl, hp⟩

theorem map_call_set {l : List (Thread V A)} {t : Nat} {x y : Thread V A} (h : l[t]? = some x) (e : y.call = x.call) : (l.set t y).map Thread.call = l.map Thread.call :=
  map_set_same h e

theorem Hist.step [DecidableEq V] {blocks : (Nat → Option (Item V A)) → Nat → Nat → Bool} {evs : List (Ev V A)} {s s' : Sys V A} {e : Option (Ev V A)} (hi : Inv s.tree) (hh : Hist evs s.tree)
    (hs : MStep blocks s e s') : Hist (evs ++ e.toList) s'.tree := by
  cases hs with
  | @other e t' h =>
    have hold : ∀ t r, Ev.other (.ret t r) ∈ evs → ∃ (th : Thread V A) (r' : AssocConc.Res A) (kept : List Nat), t'.threads[t]? = some th ∧ th.phase = .done r' kept := by
      intro t r hm
      obtain ⟨th, r', kept, h1, h2⟩ := hh.rets t r hm
      obtain ⟨th', h3, _, h4⟩ := done_stays hi h h1 h2
      exact ⟨th', r', kept, h3, h4⟩
    cases h with
    | call c hok =>
      refine ⟨by rw [others_append, ← hh.calls]; simp [others], ?_⟩
      intro t r hm
      rcases List.mem_append.1 hm with hm | hm
      · exact hold t r hm
      · simp at hm
    | go t pick th ht hn =>
      obtain ⟨p', hth, _⟩ := move_does (AssocConc.next_move hi ht hn)
      refine ⟨?_, ?_⟩
      · rw [others_append]
        simp only [Option.map_none, Option.toList, others, List.append_nil]
        rw [← hh.calls, hth]
        exact map_call_set ht rfl
      · intro t r hm
        rcases List.mem_append.1 hm with hm | hm
        · exact hold t r hm
        · simp at hm
    | ret t th r kept ht hr hp =>
      refine ⟨?_, ?_⟩
      · rw [others_append]
        simp only [Option.map_some, Option.toList, others, List.append_nil]
        rw [← hh.calls]
        exact map_call_set (y := { th with returned := true }) ht rfl
      · intro u r' hm
        rcases List.mem_append.1 hm with hm | hm
        · exact hold u r' hm
        · simp at hm
          obtain ⟨e1, e2⟩ := hm
          subst e1; subst e2
          exact ⟨_, _, kept, AssocConc.set_self ht _, hp⟩
  | _ =>
    refine ⟨by rw [others_append, ← hh.calls]; simp [others, Sys.to], ?_⟩
    intro t r hm
    rcases List.mem_append.1 hm with hm | hm
    · exact hh.rets t r hm
    · simp at hm

theorem Hist.run [DecidableEq V] {blocks : (Nat → Option (Item V A)) → Nat → Nat → Bool} {P : Sys V A → Prop} {s s' : Sys V A} {l k : List (Ev V A)} (hi : Inv s.tree) (hh : Hist l s.tree)
    (hr : MRun blocks P s k s') (hc : ∀ c ∈ others k, c.creates = true) : Hist (l ++ k) s'.tree := by
  induction hr with
  | nil _ => rw [List.append_nil]; exact hh
  | step hrun h' _ ih =>
    rw [others_append] at hc
    have hc' := fun c h => hc c (List.mem_append_left _ h)
    rw [← List.append_assoc]; exact (ih hc').step (inv_run hi hrun hc') h'

theorem Hist.quiet {evs : List (Ev V A)} {s : St V A} (hh : Hist evs s) (hn : NoneRemoving evs) : Quiet s := by
  intro t th ht hr
  obtain ⟨r, h⟩ := hn t th.call (by rw [← hh.calls, List.getElem?_map, ht]; rfl) hr
  obtain ⟨th', r', kept, h1, h2⟩ := hh.rets t r h
  rw [ht] at h1; cases h1
  exact ⟨r', kept, h2⟩

theorem Quiet.step [DecidableEq V] {blocks : (Nat → Option (Item V A)) → Nat → Nat → Bool} {s s' : Sys V A} {e : Option (Ev V A)} (hi : Inv s.tree) (hq : Quiet s.tree)
    (hs : MStep blocks s e s') (hc : ∀ c ∈ others e.toList, c.removes = false) : Quiet s'.tree := by
  cases hs with
  | @other e t' h =>
    have h0 := h
    cases h with
    | call c hok =>
      intro t th ht hr
      rcases AssocConc.append_cases ht with ⟨_, e⟩ | ht
      · subst e
        have := hc c (by simp [others])
        rw [this] at hr; cases hr
      · exact hq t th ht hr
    | go u pick x hu hn =>
      obtain ⟨p', hth, _⟩ := move_does (AssocConc.next_move hi hu hn)
      intro t th ht hr
      simp only at ht
      rw [hth] at ht
      rcases AssocConc.set_cases hu ht with ⟨e1, e2⟩ | ⟨_, ht⟩
      · subst e1; subst e2
        obtain ⟨r, kept, hp⟩ := hq t x hu hr
        unfold AssocConc.next at hn
        rw [hp] at hn
        cases hn
      · exact hq t th ht hr
    | ret u x r kept hu hr' hp =>
      intro t th ht hr
      rcases AssocConc.set_cases hu ht with ⟨e1, e2⟩ | ⟨_, ht⟩
      · subst e1; subst e2; exact ⟨r, kept, hp⟩
      · exact hq t th ht hr
  | _ => exact hq

/-- While nothing is being removed, items stay. -/
theorem items_stay [DecidableEq V] {blocks : (Nat → Option (Item V A)) → Nat → Nat → Bool} {s s' : Sys V A} {e : Option (Ev V A)} (hi : Inv s.tree) (hq : Quiet s.tree)
    (hs : MStep blocks s e s') {id : Nat} (h : s.tree.item id ≠ none) : s'.tree.item id ≠ none := by
  cases hs with
  | @other e t' hs =>
    cases hs with
    | call c hok => exact h
    | ret u x r kept hu hr' hp => exact h
    | go u pick x hu hn =>
      have hm := AssocConc.next_move hi hu hn
      have hf := (hi.creates u x hu).2.2
      have hx := hq u x hu
      simp only
      cases hm with
      | make hp hc =>
        simp only [St.to]
        split
        · simp
        · exact h
      | dremove hp hd hit hcan =>
        rw [hp] at hf
        cases hc : x.call <;> rw [hc] at hf <;> simp [AssocConc.Fits] at hf
        obtain ⟨r, kept, h'⟩ := hx (by rw [hc]; rfl)
        rw [hp] at h'; cases h'
      | wiped hp hc =>
        obtain ⟨r, kept, h'⟩ := hx (by rw [hc]; rfl)
        rw [hp] at h'; cases h'
      | _ => exact h
  | _ => exact h

/-- While nothing is being removed, what can be read in the index is there. -/
theorem readable {s : St V A} (hi : Inv s) (hq : Quiet s) {p : GoString × V} {i n id : Nat} (hx : s.index p = some i) (ho : (s.node i).owner = none) (hn : 1 ≤ n) (h : id ∈ (s.node i).at n) :
    s.item id ≠ none := by
  rw [← AssocConc.content_some hx] at h
  rcases (hi.cont.mem p n id hn).1 h with ⟨it, h1, _⟩ | ⟨u, th, hu, ⟨held, hm⟩, hp, _⟩
  · rw [h1]; simp
  · exfalso
    have hok := hi.phs u th hu
    rw [hm] at hok
    have hmap : held.map (fun i => (s.node i).pair) = th.call.kvs := hok
    rw [← hmap] at hp
    obtain ⟨j, hj, e⟩ := List.mem_map.1 hp
    have := hi.locks.tch u th hu j (by rw [hm]; exact hj)
    rw [e, hx] at this
    cases this
    have := (hi.locks.own i u).2 ⟨th, hu, by rw [hm]; exact hj⟩
    rw [ho] at this; cases this

/-- The ids a match has read are ids of items. -/
def Solid (s : St V A) (x : Matcher V A) : Prop :=
  match x.phase with
  | .read _ found => ∀ k n id, id ∈ idsAt found k n → s.item id ≠ none
  | .visit ids _ => ∀ id ∈ ids, s.item id ≠ none
  | .done _ => True

/-- Match `m` is solid. -/
def SolidAt (m : Nat) (s : Sys V A) : Prop := ∀ x, s.ms[m]? = some x → Solid s.tree x

theorem SolidAt.set {m m' : Nat} {s : Sys V A} {x y : Matcher V A} (h : SolidAt m s) (hm : s.ms[m']? = some x) (h3 : Solid s.tree x → Solid s.tree y) :
    SolidAt m { s with ms := s.ms.set m' y } := by
  intro z hz
  rcases get_set hm hz with ⟨e1, e2⟩ | ⟨_, hz⟩
  · subst e1; subst e2; exact h3 (h x hm)
  · exact h z hz

theorem SolidAt.step [DecidableEq V] {blocks : (Nat → Option (Item V A)) → Nat → Nat → Bool} {s s' : Sys V A} {e : Option (Ev V A)} {m : Nat} (hi : Inv s.tree) (hq : Quiet s.tree)
    (hlt : m < s.ms.length) (h : SolidAt m s) (hs : MStep blocks s e s') : SolidAt m s' ∧ ∀ y, e ≠ some (.miss m y) := by
  have hstay := fun id => items_stay hi hq hs (id := id)
  cases hs with
  | @other e t' hs =>
    refine ⟨fun x hx => ?_, fun y he => by cases e <;> cases he⟩
    have := h x hx
    unfold Solid at this ⊢
    split at this
    · exact fun k n id hid => hstay id (this k n id hid)
    · exact fun id hid => hstay id (this id hid)
    · trivial
  | call q more hq' =>
    refine ⟨fun x hx => ?_, nofun⟩
    rcases get_append hx with ⟨e, _⟩ | hx
    · omega
    · exact h x hx
  | @read m' x p rest found ph hm hp hn =>
    refine ⟨h.set hm (fun hx => ?_), nofun⟩
    unfold Solid at hx
    rw [hp] at hx
    unfold nextRead at hn
    split at hn
    · cases hn; exact hx
    next i hix =>
      split at hn
      · cases hn
      next ho =>
        cases hn
        intro k n id hid
        rcases mem_record.1 hid with hid' | ⟨e, hid'⟩
        · exact hx k n id hid'
        · refine readable hi hq hix (AssocConc.not_owned ho) (n := n + 1) (by omega) ?_
          rw [node_content hix, AssocConc.content_some hix] at hid'
          exact hid'
  | @group m' x found keys order hm hp hk ho =>
    refine ⟨h.set hm (fun hx => ?_), nofun⟩
    unfold Solid at hx
    rw [hp] at hx
    intro id hid
    obtain ⟨g, g1, g2, g3⟩ := mem_targets.1 hid
    obtain ⟨k, hkg⟩ := List.exists_mem_of_ne_nil g g1
    exact hx k (g.length - 1) id (((Assoc.groupIds_spec g1).2 id).1 ((ho g).mem_iff.1 g3) k hkg)
  | @report m' x id' rest got it' hm hp hd hb hit =>
    refine ⟨h.set hm (fun hx => ?_), nofun⟩
    unfold Solid at hx
    rw [hp] at hx
    unfold afterReport
    split
    · exact fun id hid => hx id (List.mem_cons_of_mem _ hid)
    · trivial
  | @miss m' x id' rest got hm hp hd =>
    refine ⟨h.set hm (fun _ => trivial), ?_⟩
    intro y he
    cases he
    have hx := h x hm
    unfold Solid at hx
    rw [hp] at hx
    rcases hd with hd | hd
    · obtain ⟨t, th, ht, ⟨can, hc⟩, hph⟩ := (hi.cont.des.2 id').1 hd
      obtain ⟨r, kept, h'⟩ := hq t th ht (by rw [hc]; rfl)
      rw [h'] at hph
      rcases hph with h | ⟨_, h⟩ <;> cases h
    · exact hx id' (by simp) hd.2
  | finish m' x hm hp => exact ⟨h.set hm (fun _ => trivial), nofun⟩
  | @ret m' x got hm hp hr =>
    refine ⟨h.set hm (fun hx => ?_), nofun⟩
    unfold Solid
    simp only [hp]

theorem no_miss [DecidableEq V] {blocks : (Nat → Option (Item V A)) → Nat → Nat → Bool} {P : Sys V A → Prop} {s s' : Sys V A} {k : List (Ev V A)} {m : Nat} (hi : Inv s.tree) (hq : Quiet s.tree)
    (hlt : m < s.ms.length) (h : SolidAt m s) (hr : MRun blocks P s k s') (hc : ∀ c ∈ others k, c.creates = true ∧ c.removes = false) :
    (∀ y, Ev.miss m y ∉ k) ∧ SolidAt m s' ∧ Quiet s'.tree ∧ m < s'.ms.length := by
  induction hr with
  | nil _ => exact ⟨nofun, h, hq, hlt⟩
  | @step s1 s2 evs e hrun hs hP ih =>
    rw [others_append] at hc
    have hc' := fun c h => hc c (List.mem_append_left _ h)
    obtain ⟨i1, i2, i3, i4⟩ := ih hc'
    have hi1 := inv_run hi hrun (fun c h => (hc' c h).1)
    obtain ⟨j1, j2⟩ := i2.step hi1 i3 i4 hs
    refine ⟨?_, j1, i3.step hi1 hs (fun c h => (hc c (List.mem_append_right _ h)).2), ?_⟩
    · intro y hy
      rcases List.mem_append.1 hy with hy | hy
      · exact i1 y hy
      · exact j2 y (by simpa using hy)
    · cases hs <;> simp [Sys.to] <;> omega

/-- While nothing is being removed, everything that matches is reported. -/
theorem complete_quiet [DecidableEq V] [Inhabited V] {blocks : (Nat → Option (Item V A)) → Nat → Nat → Bool} {P : Sys V A → Prop} {l k : List (Ev V A)} {s1 s2 s3 : Sys V A} {q : Query V}
    {more : A → Bool} (h1 : MRun blocks P Sys.init l s1) (h2 : MStep blocks s1 (some (.call q more)) s2) (h3 : MRun blocks P s2 k s3)
    (hl : ∀ c ∈ others l, c.creates = true) (hk : ∀ c ∈ others k, c.creates = true ∧ c.removes = false) (hn : NoneRemoving l) :
    ∀ y, Ev.miss (matchCalls l).length y ∉ k := by
  have hi1 : Inv s1.tree := inv_run AssocConc.Inv.init h1 hl
  have hh : Hist l s1.tree := by simpa using Hist.run AssocConc.Inv.init Hist.init h1 hl
  have hb1 : Book l s1 := Book.run Book.init h1
  have hlen : (matchCalls l).length = s1.ms.length := by rw [← hb1.calls, List.length_map]
  have e2 := call_state h2
  refine (no_miss (s := s2) (by rw [e2]; exact hi1) (by rw [e2]; exact hh.quiet hn) (by rw [e2, hlen]; simp) ?_ h3 hk).1
  intro x hx
  rw [e2, hlen] at hx
  simp at hx
  subst hx
  intro k n id hid
  simp [idsAt] at hid

/-- Items that are there when nothing is being removed stay. -/
theorem present_quiet [DecidableEq V] {blocks : (Nat → Option (Item V A)) → Nat → Nat → Bool} {P : Sys V A → Prop} {s s' : Sys V A} {k : List (Ev V A)} (hi : Inv s.tree) (hq : Quiet s.tree)
    (hr : MRun blocks P s k s') (hc : ∀ c ∈ others k, c.creates = true ∧ c.removes = false) {id : Nat} {it : Item V A} (hit : s.tree.item id = some it) :
    MRun blocks (Present id it) s k s' ∧ Quiet s'.tree := by
  have hde : ∀ {s : Sys V A}, Inv s.tree → Quiet s.tree → id ∉ s.tree.destroying := by
    intro s hi hq hd
    obtain ⟨t, th, ht, ⟨can, hc⟩, hph⟩ := (hi.cont.des.2 id).1 hd
    obtain ⟨r, kept, h'⟩ := hq t th ht (by rw [hc]; rfl)
    rw [h'] at hph
    rcases hph with h | ⟨_, h⟩ <;> cases h
  induction hr with
  | nil _ => exact ⟨.nil ⟨hit, hde hi hq⟩, hq⟩
  | @step s1 s2 evs e hrun hs hP ih =>
    rw [others_append] at hc
    have hc' := fun c h => hc c (List.mem_append_left _ h)
    obtain ⟨i1, i2⟩ := ih hc'
    have hi1 := inv_run hi hrun (fun c h => (hc' c h).1)
    have hi2 := inv_step hi1 hs (fun c h => (hc c (List.mem_append_right _ h)).1)
    have hq2 := i2.step hi1 hs (fun c h => (hc c (List.mem_append_right _ h)).2)
    have hP1 : Present id it s1 := by cases i1 <;> assumption
    have hst := items_stay hi1 i2 hs (id := id) (by rw [hP1.1]; simp)
    have hsame : s2.tree.item id = some it := by
      cases hs with
      | @other e t' hs' =>
        cases hs' with
        | call c hok => exact hP1.1
        | ret u x r kept hu hr' hp => exact hP1.1
        | go u pick x hu hn =>
          obtain ⟨p', _, _, hitem, _⟩ := move_does (AssocConc.next_move hi1 hu hn)
          cases e : t'.item id with
          | none => exact absurd e hst
          | some it' =>
            rcases hitem id it' e with h | ⟨hm, _⟩
            · rw [hP1.1] at h; cases h; rfl
            · have := (hi1.cont.mak u x id hu hm).2.1
              rw [hP1.1] at this; cases this
      | _ => exact hP1.1
    exact ⟨.step i1 hs ⟨hsame, hde hi2 hq2⟩, hq2⟩

end Willow.MatchConc
