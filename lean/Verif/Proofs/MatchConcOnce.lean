import Verif.Proofs.MatchConc
/-! No item is reported twice by one match: C90. -/
namespace Willow.MatchConc
open Willow.AssocConc (St Step Item Event Inv KVs Thread)

variable {V A : Type}

/-- There is an item with this id, or one is being made. -/
def Alive (s : St V A) (id : Nat) : Prop := s.item id ≠ none ∨ ∃ (u : Nat) (th : Thread V A), s.threads[u]? = some th ∧ th.Making id

theorem alive_back [DecidableEq V] {blocks : (Nat → Option (Item V A)) → Nat → Nat → Bool} {s s' : St V A} {e : Option (Event V A)} (hi : Inv s) (hs : Step blocks s e s') {id : Nat}
    (hu : id ∈ s.used) (h : Alive s' id) : Alive s id := by
  cases hs with
  | call c hok =>
    rcases h with h | ⟨u, th, h1, h2⟩
    · exact Or.inl h
    · rcases AssocConc.append_cases h1 with ⟨_, e⟩ | h1
      · subst e; exact absurd h2 (Thread.quiet_making (AssocConc.start_quiet c).1 _)
      · exact Or.inr ⟨u, th, h1, h2⟩
  | ret t x r kept ht hr hp =>
    rcases h with h | ⟨u, th, h1, h2⟩
    · exact Or.inl h
    · rcases AssocConc.set_cases ht h1 with ⟨e, e'⟩ | ⟨_, h1⟩
      · subst e; subst e'; exact Or.inr ⟨u, x, ht, h2⟩
      · exact Or.inr ⟨u, th, h1, h2⟩
  | go t pick th ht hn =>
    obtain ⟨p', hth, _, item, making⟩ := move_does (AssocConc.next_move hi ht hn)
    rcases h with h | ⟨u, x, h1, h2⟩
    · cases e : s'.item id with
      | none => exact absurd e h
      | some it =>
        rcases item id it e with h | ⟨h, _⟩
        · exact Or.inl (by rw [h]; simp)
        · exact Or.inr ⟨t, th, ht, h⟩
    · rw [hth] at h1
      rcases AssocConc.set_cases ht h1 with ⟨e, e'⟩ | ⟨_, h1⟩
      · subst e'; exact absurd hu (making id h2)
      · exact Or.inr ⟨u, x, h1, h2⟩

/-- An id can come twice only if its item is gone. -/
def Once (s : St V A) (x : Matcher V A) : Prop :=
  match x.phase with
  | .read _ _ => True
  | .visit ids got => (got.map (·.1)).Nodup ∧ (∀ y ∈ got, y.1 ∉ ids) ∧ ids.Pairwise (fun a b => a = b → ¬ Alive s a)
  | .done got => (got.map (·.1)).Nodup

/-- Two groups of keys for which the same id was read have the same keys. -/
theorem same_group {s : St V A} {id : Nat} {g g' : List GoString} (hg : g.Nodup) (hne : g ≠ []) (h : ∀ k ∈ g, ∃ v, s.Claim id (k, v) g.length)
    (hg' : g'.Nodup) (hne' : g' ≠ []) (h' : ∀ k ∈ g', ∃ v, s.Claim id (k, v) g'.length) (ha : Alive s id) : g.Perm g' := by
  have key : ∀ (g : List GoString), g.Nodup → g ≠ [] → ∀ kvs : KVs V, (∀ k ∈ g, ∃ v, (k, v) ∈ kvs ∧ kvs.length = g.length) → g.Perm (kvs.map (·.1)) := by
    intro g hg hne kvs hk
    apply Assoc.perm_of_subset hg
    · intro k h; obtain ⟨v, h1, _⟩ := hk k h; exact List.mem_map.2 ⟨_, h1, rfl⟩
    · obtain ⟨k, h⟩ := List.exists_mem_of_ne_nil g hne
      obtain ⟨v, _, h2⟩ := hk k h
      rw [List.length_map, h2]
  cases hit : s.item id with
  | some it =>
    have e := key g hg hne it.kvs fun k hk => (h k hk).imp fun v hc => hc.2.1 it hit
    have e' := key g' hg' hne' it.kvs fun k hk => (h' k hk).imp fun v hc => hc.2.1 it hit
    exact e.trans e'.symm
  | none =>
    rcases ha with ha | ⟨u, th, h1, h2⟩
    · exact absurd hit ha
    · have e := key g hg hne th.call.kvs fun k hk => (h k hk).imp fun v hc => hc.2.2 u th h1 h2
      have e' := key g' hg' hne' th.call.kvs fun k hk => (h' k hk).imp fun v hc => hc.2.2 u th h1 h2
      exact e.trans e'.symm

theorem Once.group {s : St V A} {x : Matcher V A} {found : List (GoString × List (List Nat))} {keys : List GoString} {order : List GoString → List Nat}
    (h : MOk s x) (hp : x.phase = .read [] found) (hk : keys.Perm (found.map (·.1))) (ho : ∀ g, (order g).Perm (Assoc.groupIds found g)) :
    Once s { x with phase := .visit (targets keys order) [] } := by
  unfold MOk at h
  rw [hp] at h
  obtain ⟨_, h2, h3⟩ := h
  have hkeys : keys.Nodup := hk.nodup_iff.2 h2
  refine ⟨by simp, nofun, ?_⟩
  unfold targets Assoc.genPermutations
  rw [if_neg (by omega), Option.getD_some]
  generalize hgr : Assoc.stableSort Assoc.groupLe (Assoc.genPairs 0 (-1) keys) = groups
  have hgnd : groups.Nodup := by rw [← hgr]; exact Assoc.stableSort_perm.nodup_iff.2 (Assoc.nodup_genPairs hkeys)
  have hgm : ∀ g ∈ groups, g ≠ [] ∧ g.Sublist keys := by
    intro g hg; rw [← hgr, Assoc.stableSort_perm.mem_iff, Assoc.mem_genPairs] at hg; exact ⟨hg.1, hg.2.1⟩
  have hcl : ∀ g ∈ groups, ∀ id ∈ order g, ∀ k ∈ g, ∃ v, s.Claim id (k, v) g.length := by
    intro g hg id hid k hkg
    have hl : 0 < g.length := List.length_pos_iff.2 (hgm g hg).1
    have := ((Assoc.groupIds_spec (hgm g hg).1).2 id).1 ((ho g).mem_iff.1 hid) k hkg
    obtain ⟨v, _, h5⟩ := h3 k (g.length - 1) id this
    rw [Nat.sub_add_cancel hl] at h5
    exact ⟨v, h5⟩
  rw [List.pairwise_flatMap]
  refine ⟨fun g hg => ?_, ?_⟩
  · have : (order g).Nodup := (ho g).nodup_iff.2 (Assoc.groupIds_spec (hgm g hg).1).1
    exact this.imp fun hne e => absurd e hne
  · refine hgnd.imp_of_mem ?_
    intro g g' hg hg' hne y hy z hz e ha
    subst e
    have hp := same_group ((hgm g hg).2.nodup hkeys) (hgm g hg).1 (hcl g hg y hy) ((hgm g' hg').2.nodup hkeys) (hgm g' hg').1 (hcl g' hg' y hz) ha
    exact hne (Assoc.sublist_ext (hgm g hg).2 (hgm g' hg').2 hkeys fun k => hp.mem_iff)

/-- All matches. -/
def AllOnce (s : Sys V A) : Prop := ∀ (m : Nat) (x : Matcher V A), s.ms[m]? = some x → Once s.tree x

theorem AllOnce.set {s : Sys V A} (h : AllOnce s) {m : Nat} {x y : Matcher V A} (hm : s.ms[m]? = some x) (hy : Once s.tree y) : AllOnce { s with ms := s.ms.set m y } := by
  intro u z hu
  rcases get_set hm hu with ⟨_, e⟩ | ⟨_, hu⟩
  · subst e; exact hy
  · exact h u z hu

theorem AllOnce.step [DecidableEq V] {blocks : (Nat → Option (Item V A)) → Nat → Nat → Bool} {s s' : Sys V A} {e : Option (Ev V A)} (hi : Inv s.tree) (hok : AllOk s) (h : AllOnce s)
    (hs : MStep blocks s e s') : AllOnce s' := by
  cases hs with
  | other hs =>
    intro m x hm
    have h0 := h m x hm
    have h1 := hok m x hm
    unfold Once at h0 ⊢
    unfold MOk at h1
    split at h0
    next e => trivial
    next ids got e =>
      rw [e] at h1
      obtain ⟨a, b, c⟩ := h0
      refine ⟨a, b, c.imp_of_mem ?_⟩
      intro y z hy _ hne e' ha
      obtain ⟨g, g1, _, g3⟩ := h1 y hy
      obtain ⟨k, hk⟩ := List.exists_mem_of_ne_nil g g1
      obtain ⟨v, _, hc⟩ := g3 k hk
      exact hne e' (alive_back hi hs hc.1 ha)
    next got e => exact h0
  | call q more hq =>
    intro m x hm
    rcases get_append hm with ⟨_, e⟩ | hm
    · subst e; trivial
    · exact h m x hm
  | read m x hm hp hn =>
    refine h.set hm ?_
    unfold nextRead at hn
    split at hn
    · cases hn; trivial
    · split at hn
      · cases hn
      · cases hn; trivial
  | group m x keys order hm hp hk ho => exact h.set hm (Once.group (hok m x hm) hp hk ho)
  | @report m x id rest got it hm hp hd hb hit =>
    refine h.set hm ?_
    have h0 := h m x hm
    unfold Once at h0
    rw [hp] at h0
    obtain ⟨a, b, c⟩ := h0
    rw [List.pairwise_cons] at c
    have hnot : id ∉ rest := fun hin => c.1 id hin rfl (Or.inl (by rw [hit]; simp))
    have hnd : ((got ++ [(id, it)]).map (·.1)).Nodup := by
      rw [List.map_append, List.nodup_append]
      refine ⟨a, by simp, ?_⟩
      intro y hy z hz e
      obtain ⟨w, hw, rfl⟩ := List.mem_map.1 hy
      simp only [List.map_cons, List.map_nil, List.mem_singleton] at hz
      exact b w hw (by rw [e, hz]; exact List.mem_cons_self)
    unfold afterReport
    split
    · refine ⟨hnd, ?_, c.2⟩
      intro y hy hin
      rcases List.mem_append.1 hy with hy | hy
      · exact b y hy (List.mem_cons_of_mem _ hin)
      · simp only [List.mem_singleton] at hy; subst hy; exact hnot hin
    · exact hnd
  | @miss m x id rest got hm hp hd =>
    refine h.set hm ?_
    have h0 := h m x hm
    unfold Once at h0
    rw [hp] at h0
    exact h0.1
  | @finish m x got hm hp =>
    refine h.set hm ?_
    have h0 := h m x hm
    unfold Once at h0
    rw [hp] at h0
    exact h0.1
  | ret m x hm hp hr =>
    refine h.set hm ?_
    have h0 := h m x hm
    unfold Once at h0 ⊢
    rw [hp] at h0 ⊢
    exact h0

theorem AllOnce.run [DecidableEq V] {blocks : (Nat → Option (Item V A)) → Nat → Nat → Bool} {P : Sys V A → Prop} {s s' : Sys V A} {evs : List (Ev V A)} (hi : Inv s.tree)
    (hok : AllOk s) (h0 : AllOnce s) (hr : MRun blocks P s evs s') (hc : ∀ c ∈ others evs, c.creates = true) : AllOnce s' := by
  induction hr with
  | nil _ => exact h0
  | step h h' _ ih =>
    rw [others_append] at hc
    have hc' := fun c h => hc c (List.mem_append_left _ h)
    exact (ih hc').step (inv_run hi h hc') (AllOk.run hi hok h hc') h'

theorem reported_once [DecidableEq V] [Inhabited V] {blocks : (Nat → Option (Item V A)) → Nat → Nat → Bool} {P : Sys V A → Prop} {s : Sys V A} {evs : List (Ev V A)}
    (hr : MRun blocks P Sys.init evs s) (hc : ∀ c ∈ others evs, c.creates = true) (m : Nat) : ((reports m evs).map (·.1)).Nodup := by
  have h := AllOnce.run AssocConc.Inv.init (fun m x hm => by simp [Sys.init] at hm) (fun m x hm => by simp [Sys.init] at hm) hr hc
  have hb : Book evs s := by simpa using Book.run Book.init hr
  cases hm : s.ms[m]? with
  | none =>
    rw [(hb.later m (by simpa using hm)).1]; simp
  | some x =>
    rw [← hb.reps m x hm]
    have h0 := h m x hm
    unfold Once at h0
    unfold Phase.got
    split at h0
    next e => rw [e]; simp
    next e => rw [e]; exact h0.1
    next e => rw [e]; exact h0

end Willow.MatchConc

namespace Willow.MatchConc
variable {V A : Type}

/-- The callback has asked for more after everything but the last. -/
def Going (x : Matcher V A) : Prop :=
  match x.phase with
  | .read _ _ => True
  | .visit _ got => ∀ y ∈ got, x.more y.2.val = true
  | .done got => ∀ y ∈ got.dropLast, x.more y.2.val = true

theorem going_step [DecidableEq V] {blocks : (Nat → Option (AssocConc.Item V A)) → Nat → Nat → Bool} {s s' : Sys V A} {e : Option (Ev V A)} (h : ∀ x ∈ s.ms, Going x)
    (hs : MStep blocks s e s') : ∀ x ∈ s'.ms, Going x := by
  have set : ∀ {m : Nat} {y : Matcher V A}, Going y → ∀ x ∈ s.ms.set m y, Going x := by
    intro m y hy x hx
    rcases List.mem_or_eq_of_mem_set hx with hx | e
    · exact h x hx
    · subst e; exact hy
  cases hs with
  | other hs => exact h
  | call q more hq =>
    intro x hx
    rcases List.mem_append.1 hx with hx | hx
    · exact h x hx
    · simp only [List.mem_singleton] at hx; subst hx; trivial
  | read m x hm hp hn =>
    apply set
    unfold nextRead at hn
    split at hn
    · cases hn; trivial
    · split at hn
      · cases hn
      · cases hn; trivial
  | group m x keys order hm hp hk ho => exact set (m := m) (fun y hy => by cases hy)
  | @report m x id rest got it hm hp hd hb hit =>
    apply set
    have h0 := h x (List.mem_of_getElem? hm)
    unfold Going at h0
    rw [hp] at h0
    unfold afterReport
    split
    next hmore =>
      intro y hy
      rcases List.mem_append.1 hy with hy | hy
      · exact h0 y hy
      · simp only [List.mem_singleton] at hy; subst hy; exact hmore
    next =>
      intro y hy
      rw [List.dropLast_concat] at hy
      exact h0 y hy
  | @miss m x id rest got hm hp hd =>
    apply set
    have h0 := h x (List.mem_of_getElem? hm)
    unfold Going at h0
    rw [hp] at h0
    exact fun y hy => h0 y (List.dropLast_subset _ hy)
  | @finish m x got hm hp =>
    apply set
    have h0 := h x (List.mem_of_getElem? hm)
    unfold Going at h0
    rw [hp] at h0
    exact fun y hy => h0 y (List.dropLast_subset _ hy)
  | ret m x hm hp hr => exact set (h x (List.mem_of_getElem? hm))

theorem going_run [DecidableEq V] {blocks : (Nat → Option (AssocConc.Item V A)) → Nat → Nat → Bool} {P : Sys V A → Prop} {s s' : Sys V A} {evs : List (Ev V A)} (h0 : ∀ x ∈ s.ms, Going x)
    (hr : MRun blocks P s evs s') : ∀ x ∈ s'.ms, Going x := by
  induction hr with
  | nil _ => exact h0
  | step _ h' _ ih => exact going_step ih h'

theorem stops [DecidableEq V] [Inhabited V] {blocks : (Nat → Option (AssocConc.Item V A)) → Nat → Nat → Bool} {P : Sys V A → Prop} {s : Sys V A} {evs : List (Ev V A)} (hr : MRun blocks P Sys.init evs s)
    {m i : Nat} {y : Nat × AssocConc.Item V A} {q : Query V} {more : A → Bool} (hm : (matchCalls evs)[m]? = some (q, more)) (hi : (reports m evs)[i]? = some y) (hy : more y.2.val = false) :
    i + 1 = (reports m evs).length := by
  have hb : Book evs s := by simpa using Book.run Book.init hr
  rw [← hb.calls, List.getElem?_map, Option.map_eq_some_iff] at hm
  obtain ⟨x, hx, e⟩ := hm
  cases e
  have h0 := going_run (fun x hx => by cases hx) hr x (List.mem_of_getElem? hx)
  rw [← hb.reps m x hx] at hi ⊢
  have hlt := (List.getElem?_eq_some_iff.1 hi).1
  unfold Going at h0
  cases e : x.phase with
  | read _ _ => rw [e] at hi; simp [Phase.got] at hi
  | visit ids got =>
    rw [e] at h0 hi
    rw [h0 y (List.mem_of_getElem? hi)] at hy; cases hy
  | done got =>
    rw [e] at h0 hi hlt
    simp only [Phase.got] at hi hlt ⊢
    apply Classical.byContradiction
    intro hne
    have : y ∈ got.dropLast := by
      rw [List.dropLast_eq_take, List.mem_take_iff_getElem]
      obtain ⟨h1, h2⟩ := List.getElem?_eq_some_iff.1 hi
      exact ⟨i, by omega, h2⟩
    rw [h0 y this] at hy; cases hy

end Willow.MatchConc
