import Verif.Spec.MatchConc
import Verif.Proofs.AssocConcSim
import Verif.Proofs.AssocMatch
/-! Matches while items come and go: C90. -/
namespace Willow.MatchConc
open Willow.AssocConc (St Step Item Event Run Inv KVs Call Thread)

variable {V A : Type}

/-! ### What stays known about an id -/

/-- What a step of call `t` does to the items. -/
def Does (s s' : St V A) (t : Nat) (th : Thread V A) (p' : AssocConc.Phase V A) : Prop :=
  s'.threads = s.threads.set t { th with phase := p' } ∧ (∀ id ∈ s.used, id ∈ s'.used) ∧
    (∀ id it, s'.item id = some it → s.item id = some it ∨ th.Making id ∧ th.call.kvs = it.kvs) ∧ ∀ id, ({ th with phase := p' } : Thread V A).Making id → id ∉ s.used

theorem move_does [DecidableEq V] {s s' : St V A} {t : Nat} {th : Thread V A} (hm : AssocConc.Move s t th s') : ∃ p', Does s s' t th p' := by
  cases hm with
  | startMake hp hg hf =>
    refine ⟨_, rfl, fun _ h => List.mem_cons_of_mem _ h, fun _ _ h => Or.inl h, ?_⟩
    rintro j ⟨held, e⟩; cases e; exact hf
  | make hp hc =>
    refine ⟨_, rfl, fun _ h => h, ?_, ?_⟩
    · intro j it hj
      simp only [St.to] at hj
      split at hj
      next e => cases hj; subst e; exact Or.inr ⟨⟨_, hp⟩, rfl⟩
      · exact Or.inl hj
    · rintro j ⟨held, e⟩; cases e
  | dremove hp hd hit hcan =>
    refine ⟨_, rfl, fun _ h => h, ?_, ?_⟩
    · intro j it hj
      simp only [St.to, St.setNodes] at hj
      split at hj
      · cases hj
      · exact Or.inl hj
    · rintro j ⟨held, e⟩; cases e
  | wiped hp hc =>
    refine ⟨_, rfl, fun _ h => h, ?_, ?_⟩
    · intro j it hj
      simp only [AssocConc.nextWiped, St.to] at hj
      split at hj
      · cases hj
      · exact Or.inl hj
    · rintro j ⟨held, e⟩; cases e
  | queryMiss hp hm =>
    refine ⟨_, rfl, fun _ h => h, fun _ _ h => Or.inl h, ?_⟩
    rintro j ⟨held, e⟩; cases hc : th.call <;> simp [hc, AssocConc.afterQuery] at e
  | lookupEnd hp =>
    refine ⟨_, rfl, fun _ h => h, fun _ _ h => Or.inl h, ?_⟩
    rintro j ⟨held, e⟩; cases hc : th.call <;> simp [hc, AssocConc.afterQuery] at e
  | _ =>
    refine ⟨_, rfl, fun _ h => h, fun _ _ h => Or.inl h, ?_⟩
    rintro j ⟨held, e⟩; cases e

theorem claim_move [DecidableEq V] {s s' : St V A} {t : Nat} {th : Thread V A} (ht : s.threads[t]? = some th) (hm : AssocConc.Move s t th s')
    {id : Nat} {p : GoString × V} {n : Nat} (h : s.Claim id p n) : s'.Claim id p n := by
  obtain ⟨p', hth, used, item, making⟩ := move_does hm
  obtain ⟨h1, h2, h3⟩ := h
  refine ⟨used _ h1, ?_, ?_⟩
  · intro it hit
    rcases item _ _ hit with h | ⟨hm, e⟩
    · exact h2 it h
    · rw [← e]; exact h3 t th ht hm
  · intro u x hu hm
    rw [hth, AssocConc.set_get ht] at hu
    by_cases he : u = t
    · rw [if_pos he] at hu; cases hu; exact absurd h1 (making id hm)
    · rw [if_neg he] at hu; exact h3 u x hu hm

theorem claim_step [DecidableEq V] {blocks : (Nat → Option (Item V A)) → Nat → Nat → Bool} {s s' : St V A} {e : Option (Event V A)} (hi : Inv s) (hs : Step blocks s e s')
    {id : Nat} {p : GoString × V} {n : Nat} (h : s.Claim id p n) : s'.Claim id p n := by
  cases hs with
  | call c hok =>
    refine ⟨h.1, h.2.1, ?_⟩
    intro u x hu hm
    rcases AssocConc.append_cases hu with ⟨_, e⟩ | hu
    · subst e
      exact absurd hm (Thread.quiet_making (AssocConc.start_quiet c).1 _)
    · exact h.2.2 u x hu hm
  | go t pick th ht hn => exact claim_move ht (AssocConc.next_move hi ht hn) h
  | ret t th r kept ht hr hp =>
    refine ⟨h.1, h.2.1, ?_⟩
    intro u x hu hm
    rcases AssocConc.set_cases ht hu with ⟨e, e'⟩ | ⟨_, hu⟩
    · subst e; subst e'
      exact h.2.2 u th ht hm
    · exact h.2.2 u x hu hm

/-! ### Lists of ids -/

theorem mem_merge {n x : Nat} : ∀ (acc nd : List (List Nat)), x ∈ (merge acc nd).getD n [] ↔ x ∈ acc.getD n [] ∨ x ∈ nd.getD n []
  | acc, [] => by simp [merge]
  | [], b :: nd => by simp [merge]
  | a :: acc, b :: nd => by
    rw [merge]
    cases n with
    | zero => simp
    | succ n => simpa using mem_merge acc nd

theorem seq_equiv : Assoc.Equiv' Assoc.seq := by
  constructor <;> simp_all [Assoc.seq]

/-- The ids found for a key, by number of key-values. -/
def idsAt (found : List (GoString × List (List Nat))) (k : GoString) (n : Nat) : List Nat := ((Assoc.alookup Assoc.seq k found).getD []).getD n []

theorem mem_record {k k' : GoString} {nd : List (List Nat)} {found : List (GoString × List (List Nat))} {n x : Nat} :
    x ∈ idsAt (record k nd found) k' n ↔ x ∈ idsAt found k' n ∨ (k = k' ∧ x ∈ nd.getD n []) := by
  unfold record idsAt
  split
  next h => subst h; simp
  · rw [Assoc.alookup_aupsert seq_equiv]
    by_cases h : k = k'
    · subst h
      simp only [Assoc.seq, beq_self_eq_true, if_true, Option.getD_some, mem_merge]
      simp
    · have : Assoc.seq k k' = false := by simpa [Assoc.seq] using h
      rw [this]
      simp [h]

theorem upsert_keys {k : GoString} {f : Option (List (List Nat)) → List (List Nat)} : ∀ {found : List (GoString × List (List Nat))}, (found.map (·.1)).Nodup →
    ((Assoc.aupsert Assoc.seq k f found).map (·.1)).Nodup ∧ ∀ k', k' ∈ (Assoc.aupsert Assoc.seq k f found).map (·.1) ↔ k' = k ∨ k' ∈ found.map (·.1)
  | [], _ => by simp [Assoc.aupsert]
  | x :: found, h => by
    simp only [List.map_cons, List.nodup_cons] at h
    rw [Assoc.aupsert]
    by_cases hx : x.1 = k
    · rw [if_pos (by simp [Assoc.seq, hx])]
      simp only [List.map_cons, List.nodup_cons, List.mem_cons]
      exact ⟨h, fun k' => by rw [hx]; grind⟩
    · rw [if_neg (by simp [Assoc.seq, hx])]
      obtain ⟨i1, i2⟩ := upsert_keys (k := k) (f := f) h.2
      simp only [List.map_cons, List.nodup_cons, List.mem_cons]
      refine ⟨⟨?_, i1⟩, fun k' => by rw [i2]; grind⟩
      rw [i2]
      rintro (h' | h')
      · exact hx h'
      · exact h.1 h'

theorem record_nodup {k : GoString} {nd : List (List Nat)} {found : List (GoString × List (List Nat))} (h : (found.map (·.1)).Nodup) : ((record k nd found).map (·.1)).Nodup := by
  unfold record
  split
  · exact h
  · exact (upsert_keys h).1

theorem idsAt_key {found : List (GoString × List (List Nat))} {k : GoString} {n x : Nat} (h : x ∈ idsAt found k n) : k ∈ found.map (·.1) := by
  unfold idsAt at h
  cases e : Assoc.alookup Assoc.seq k found with
  | none => rw [e] at h; simp at h
  | some l =>
    obtain ⟨y, hy⟩ := Assoc.alookup_mem e
    grind [Assoc.seq]

theorem mem_targets {keys : List GoString} {order : List GoString → List Nat} {id : Nat} :
    id ∈ targets keys order ↔ ∃ g, g ≠ [] ∧ g.Sublist keys ∧ id ∈ order g := by
  unfold targets Assoc.genPermutations
  rw [if_neg (by omega)]
  simp only [Option.getD_some, List.mem_flatMap, Assoc.stableSort_perm.mem_iff, Assoc.mem_genPairs]
  constructor
  · rintro ⟨g, ⟨h1, h2, _⟩, h3⟩; exact ⟨g, h1, h2, h3⟩
  · rintro ⟨g, h1, h2, h3⟩
    refine ⟨g, ⟨h1, h2, ?_⟩, h3⟩
    simp [Assoc.sizeOk]

theorem mem_pairs {q : Query V} {p : GoString × V} : p ∈ pairs q ↔ ∃ vs, (p.1, vs) ∈ q ∧ p.2 ∈ vs := by
  unfold pairs
  simp only [List.mem_flatMap, List.mem_map]
  constructor
  · rintro ⟨⟨k, vs⟩, h1, v, h2, rfl⟩; exact ⟨vs, h1, h2⟩
  · rintro ⟨vs, h1, h2⟩; exact ⟨_, h1, _, h2, rfl⟩

theorem matches_iff {q : Query V} {kvs : KVs V} : Matches q kvs ↔ ∀ p ∈ kvs, p ∈ pairs q :=
  ⟨fun h p hp => mem_pairs.2 (h p hp), fun h p hp => mem_pairs.1 (h p hp)⟩

/-! ### Runs -/

theorem others_append (l k : List (Ev V A)) : others (l ++ k) = others l ++ others k := by
  induction l with
  | nil => rfl
  | cons e l ih => cases e with
    | other e => cases e <;> simp [others, ih]
    | _ => simp [others, ih]

theorem matchCalls_append (l k : List (Ev V A)) : matchCalls (l ++ k) = matchCalls l ++ matchCalls k := by
  induction l with
  | nil => rfl
  | cons e l ih => cases e <;> simp [matchCalls, ih]

theorem reports_append (m : Nat) (l k : List (Ev V A)) : reports m (l ++ k) = reports m l ++ reports m k := by
  induction l with
  | nil => rfl
  | cons e l ih => cases e <;> simp [reports, ih] ; split <;> simp

/-- The calls an optional event makes. -/
theorem inv_step [DecidableEq V] {blocks : (Nat → Option (Item V A)) → Nat → Nat → Bool} {s s' : Sys V A} {e : Option (Ev V A)} (hi : Inv s.tree) (hs : MStep blocks s e s')
    (hc : ∀ c ∈ others e.toList, c.creates = true) : Inv s'.tree := by
  cases hs with
  | @other e t' h =>
    cases h with
    | call c hok => exact hi.call c (hc c (by simp [others])) hok
    | go t pick th ht hn => exact hi.move ht (AssocConc.next_move hi ht hn)
    | ret t th r kept ht hr hp => exact hi.ret ht
  | _ => exact hi

theorem inv_run [DecidableEq V] {blocks : (Nat → Option (Item V A)) → Nat → Nat → Bool} {P : Sys V A → Prop} {s s' : Sys V A} {evs : List (Ev V A)} (hi : Inv s.tree)
    (hr : MRun blocks P s evs s') (hc : ∀ c ∈ others evs, c.creates = true) : Inv s'.tree := by
  induction hr with
  | nil _ => exact hi
  | step h h' _ ih =>
    rw [others_append] at hc
    exact inv_step (ih fun c h => hc c (List.mem_append_left _ h)) h' (fun c h => hc c (List.mem_append_right _ h))

/-- What is known about the ids a match has read. -/
def MOk (s : St V A) (x : Matcher V A) : Prop :=
  match x.phase with
  | .read todo found => (∃ before, pairs x.query = before ++ todo) ∧ (found.map (·.1)).Nodup ∧
      ∀ k n id, id ∈ idsAt found k n → ∃ v, (k, v) ∈ pairs x.query ∧ s.Claim id (k, v) (n + 1)
  | .visit ids _ => ∀ id ∈ ids, ∃ g : List GoString, g ≠ [] ∧ g.Nodup ∧ ∀ k ∈ g, ∃ v, (k, v) ∈ pairs x.query ∧ s.Claim id (k, v) g.length
  | .done _ => True

theorem MOk.keep {s s' : St V A} {x : Matcher V A} (h : MOk s x) (hc : ∀ id p n, s.Claim id p n → s'.Claim id p n) : MOk s' x := by
  unfold MOk at h ⊢
  split at h
  next todo found e =>
    refine ⟨h.1, h.2.1, ?_⟩
    intro k n id hid
    obtain ⟨v, h1, h2⟩ := h.2.2 k n id hid
    exact ⟨v, h1, hc _ _ _ h2⟩
  next ids got e =>
    intro id hid
    obtain ⟨g, h1, h2, h3⟩ := h id hid
    refine ⟨g, h1, h2, fun k hk => ?_⟩
    obtain ⟨v, h4, h5⟩ := h3 k hk
    exact ⟨v, h4, hc _ _ _ h5⟩
  next => trivial

theorem node_content {s : St V A} {p : GoString × V} {i n : Nat} (h : s.index p = some i) : (s.node i).ids.getD n [] = s.content p (n + 1) := by
  rw [AssocConc.content_some h]
  simp [AssocConc.Node.at, List.getD]

theorem MOk.read {s : St V A} (hi : Inv s) {x : Matcher V A} {p : GoString × V} {rest : List (GoString × V)} {found : List (GoString × List (List Nat))} {ph : Phase V A}
    (h : MOk s x) (hp : x.phase = .read (p :: rest) found) (hn : nextRead s found p rest = some ph) : MOk s { x with phase := ph } := by
  unfold MOk at h
  rw [hp] at h
  obtain ⟨⟨before, hb⟩, h2, h3⟩ := h
  have hb' : pairs x.query = (before ++ [p]) ++ rest := by rw [hb]; simp
  unfold nextRead at hn
  split at hn
  · cases hn; exact ⟨⟨_, hb'⟩, h2, h3⟩
  next i hx =>
    split at hn
    · cases hn
    · cases hn
      refine ⟨⟨_, hb'⟩, record_nodup h2, ?_⟩
      intro k n id hid
      rcases mem_record.1 hid with hid' | ⟨e, hid'⟩
      · exact h3 k n id hid'
      · subst e
        rw [node_content hx] at hid'
        refine ⟨p.2, ?_, hi.claim (by omega) hid'⟩
        show p ∈ pairs x.query
        rw [hb]; simp

theorem MOk.group {s : St V A} {x : Matcher V A} {found : List (GoString × List (List Nat))} {keys : List GoString} {order : List GoString → List Nat}
    (h : MOk s x) (hp : x.phase = .read [] found) (hk : keys.Perm (found.map (·.1))) (ho : ∀ g, (order g).Perm (Assoc.groupIds found g)) :
    MOk s { x with phase := .visit (targets keys order) [] } := by
  unfold MOk at h
  rw [hp] at h
  obtain ⟨_, h2, h3⟩ := h
  intro id hid
  obtain ⟨g, g1, g2, g3⟩ := mem_targets.1 hid
  refine ⟨g, g1, g2.nodup (hk.nodup_iff.2 h2), ?_⟩
  intro k hkg
  have := ((Assoc.groupIds_spec g1).2 id).1 ((ho g).mem_iff.1 g3) k hkg
  obtain ⟨v, h4, h5⟩ := h3 k (g.length - 1) id this
  have hl : 0 < g.length := List.length_pos_iff.2 g1
  rw [Nat.sub_add_cancel hl] at h5
  exact ⟨v, h4, h5⟩

theorem get_set {α : Type} {l : List α} {t u : Nat} {x y z : α} (h : l[t]? = some x) (hu : (l.set t y)[u]? = some z) : (u = t ∧ z = y) ∨ (u ≠ t ∧ l[u]? = some z) := by
  rw [AssocConc.set_get h] at hu
  split at hu
  next e => cases hu; exact Or.inl ⟨e, rfl⟩
  next e => exact Or.inr ⟨e, hu⟩

theorem get_append {α : Type} {l : List α} {u : Nat} {y z : α} (hu : (l ++ [y])[u]? = some z) : (u = l.length ∧ z = y) ∨ l[u]? = some z := by
  rw [List.getElem?_append] at hu
  split at hu
  · exact Or.inr hu
  next h =>
    have : u - l.length = 0 := by
      apply Classical.byContradiction
      intro h'
      rw [List.getElem?_eq_none (by simp; omega)] at hu
      cases hu
    rw [this] at hu
    simp only [List.getElem?_cons_zero, Option.some.injEq] at hu
    exact Or.inl ⟨by omega, hu.symm⟩

/-- Everything known about all matches. -/
def AllOk (s : Sys V A) : Prop := ∀ (m : Nat) (x : Matcher V A), s.ms[m]? = some x → MOk s.tree x

theorem AllOk.set {s : Sys V A} (h : AllOk s) {m : Nat} {x y : Matcher V A} (hm : s.ms[m]? = some x) (hy : MOk s.tree y) : AllOk { s with ms := s.ms.set m y } := by
  intro u z hu
  rcases get_set hm hu with ⟨_, e⟩ | ⟨_, hu⟩
  · subst e; exact hy
  · exact h u z hu

theorem AllOk.step [DecidableEq V] {blocks : (Nat → Option (Item V A)) → Nat → Nat → Bool} {s s' : Sys V A} {e : Option (Ev V A)} (hi : Inv s.tree) (h : AllOk s)
    (hs : MStep blocks s e s') : AllOk s' := by
  cases hs with
  | other hs => exact fun m x hm => (h m x hm).keep fun _ _ _ hc => claim_step hi hs hc
  | call q more hq =>
    intro m x hm
    rcases get_append hm with ⟨_, e⟩ | hm
    · subst e
      exact ⟨⟨[], rfl⟩, by simp, fun k n id hid => by simp [idsAt] at hid⟩
    · exact h m x hm
  | read m x hm hp hn => exact h.set hm ((h m x hm).read hi hp hn)
  | group m x keys order hm hp hk ho => exact h.set hm ((h m x hm).group hp hk ho)
  | @report m x id rest got it hm hp hd hb hit =>
    refine h.set hm ?_
    have h0 := h m x hm
    unfold MOk at h0
    rw [hp] at h0
    unfold afterReport
    split
    · exact fun id hid => h0 id (List.mem_cons_of_mem _ hid)
    · trivial
  | miss m x hm hp hd => exact h.set hm trivial
  | finish m x hm hp => exact h.set hm trivial
  | ret m x hm hp hr =>
    refine h.set hm ?_
    have h0 := h m x hm
    unfold MOk at h0 ⊢
    rw [hp] at h0 ⊢
    trivial

theorem AllOk.run [DecidableEq V] {blocks : (Nat → Option (Item V A)) → Nat → Nat → Bool} {P : Sys V A → Prop} {s s' : Sys V A} {evs : List (Ev V A)} (hi : Inv s.tree)
    (h0 : AllOk s) (hr : MRun blocks P s evs s') (hc : ∀ c ∈ others evs, c.creates = true) : AllOk s' := by
  induction hr with
  | nil _ => exact h0
  | step h h' _ ih =>
    rw [others_append] at hc
    have hc' := fun c h => hc c (List.mem_append_left _ h)
    exact (ih hc').step (inv_run hi h hc') h'

/-- An item whose id was read for a group of keys and which is there matches the query. -/
theorem claims_match {s : St V A} (hi : Inv s) {q : Query V} {id : Nat} {it : Item V A} {g : List GoString} (hg : g.Nodup) (hit : s.item id = some it)
    (h : ∀ k ∈ g, ∃ v, (k, v) ∈ pairs q ∧ s.Claim id (k, v) g.length) (hne : g ≠ []) : Matches q it.kvs ∧ g.Perm (it.kvs.map (·.1)) := by
  obtain ⟨_, _, hs⟩ := hi.cont.itm id it hit
  have hlen : it.kvs.length = g.length := by
    obtain ⟨k, hk⟩ := List.exists_mem_of_ne_nil g hne
    obtain ⟨v, _, hc⟩ := h k hk
    exact (hc.2.1 it hit).2
  have hperm : g.Perm (it.kvs.map (·.1)) := by
    apply Assoc.perm_of_subset hg
    · intro k hk
      obtain ⟨v, _, hc⟩ := h k hk
      exact List.mem_map.2 ⟨_, (hc.2.1 it hit).1, rfl⟩
    · simp [hlen]
  refine ⟨matches_iff.2 ?_, hperm⟩
  intro p hp
  obtain ⟨v, h1, hc⟩ := h p.1 (hperm.mem_iff.2 (List.mem_map.2 ⟨p, hp, rfl⟩))
  have := hs.key hp (hc.2.1 it hit).1 rfl
  rw [this]; exact h1

theorem report_matches [DecidableEq V] [Inhabited V] {blocks : (Nat → Option (Item V A)) → Nat → Nat → Bool} {P : Sys V A → Prop} {s s' : Sys V A} {evs : List (Ev V A)} {m id : Nat} {it : Item V A}
    (hr : MRun blocks P Sys.init evs s) (hc : ∀ c ∈ others evs, c.creates = true) (hs : MStep blocks s (some (.report m id it)) s') :
    Present id it s ∧ ∃ x, s.ms[m]? = some x ∧ Matches x.query it.kvs := by
  have hi : Inv s.tree := inv_run AssocConc.Inv.init hr hc
  have ha : AllOk s := AllOk.run AssocConc.Inv.init (fun m x hm => by simp [Sys.init] at hm) hr hc
  generalize he : (some (Ev.report m id it)) = e at hs
  cases hs with
  | @report m' x id' rest got it' hm hp hd hb hit =>
    cases he
    refine ⟨⟨hit, hd⟩, x, hm, ?_⟩
    have h0 := ha m x hm
    unfold MOk at h0
    rw [hp] at h0
    obtain ⟨g, g1, g2, g3⟩ := h0 id (by simp)
    exact (claims_match hi g2 hit g3 g1).1
  | @other e t' h => cases e <;> cases he
  | _ => cases he

/-! ### What is reported and returned -/

/-- What a match has reported, according to where it is. -/
def Phase.got : Phase V A → List (Nat × Item V A)
  | .read _ _ => []
  | .visit _ got | .done got => got

structure Book (evs : List (Ev V A)) (s : Sys V A) : Prop where
  calls : s.ms.map (fun x => (x.query, x.more)) = matchCalls evs
  reps : ∀ (m : Nat) (x : Matcher V A), s.ms[m]? = some x → x.phase.got = reports m evs
  later : ∀ m, s.ms.length ≤ m → reports m evs = [] ∧ ∀ got, Ev.ret m got ∉ evs
  rets : ∀ (m : Nat) (x : Matcher V A) got, s.ms[m]? = some x → Ev.ret m got ∈ evs → x.phase = .done got ∧ x.returned = true

theorem Book.init [Inhabited V] : Book ([] : List (Ev V A)) Sys.init :=
  ⟨rfl, fun m x h => by simp [Sys.init] at h, fun m _ => ⟨rfl, fun _ h => by cases h⟩, fun m x got h => by simp [Sys.init] at h⟩

theorem map_set_same {α β : Type} {f : α → β} {l : List α} {m : Nat} {x y : α} (h : l[m]? = some x) (e : f y = f x) : (l.set m y).map f = l.map f := by
  apply List.ext_getElem?
  intro u
  rw [List.getElem?_map, List.getElem?_map, AssocConc.set_get h]
  split
  next hu => subst hu; rw [h]; simp [e]
  · rfl

/-- A step of match `m` that is not a return. -/
theorem Book.moves {evs : List (Ev V A)} {s : Sys V A} (hb : Book evs s) {m : Nat} {x : Matcher V A} (hm : s.ms[m]? = some x) (hx : ∀ got, x.phase ≠ .done got) {ph : Phase V A}
    {e : Option (Ev V A)} (h1 : matchCalls e.toList = []) (h2 : ∀ m', m' ≠ m → reports m' e.toList = []) (h3 : ph.got = x.phase.got ++ reports m e.toList)
    (h4 : ∀ m' got, Ev.ret m' got ∉ e.toList) : Book (evs ++ e.toList) (s.to m x ph) := by
  have hlt : m < s.ms.length := (List.getElem?_eq_some_iff.1 hm).1
  refine ⟨?_, ?_, ?_, ?_⟩
  · rw [matchCalls_append, h1, List.append_nil, ← hb.calls]
    exact map_set_same (x := x) (y := { x with phase := ph }) hm rfl
  · intro u z hu
    rw [reports_append]
    rcases get_set hm hu with ⟨e, e'⟩ | ⟨hne, hu⟩
    · subst e; subst e'
      rw [← hb.reps u x hm]; exact h3
    · rw [h2 u hne, List.append_nil]; exact hb.reps u z hu
  · intro u hu
    simp only [Sys.to, List.length_set] at hu
    obtain ⟨i1, i2⟩ := hb.later u hu
    rw [reports_append, i1, h2 u (by omega)]
    refine ⟨rfl, fun got h => ?_⟩
    rcases List.mem_append.1 h with h | h
    · exact i2 got h
    · exact h4 _ _ h
  · intro u z got hu h
    have h' : Ev.ret u got ∈ evs := by
      rcases List.mem_append.1 h with h | h
      · exact h
      · exact absurd h (h4 _ _)
    rcases get_set hm hu with ⟨e, e'⟩ | ⟨hne, hu⟩
    · subst e
      exact absurd (hb.rets u x got hm h').1 (hx got)
    · exact hb.rets u z got hu h'

theorem Book.step [DecidableEq V] {blocks : (Nat → Option (Item V A)) → Nat → Nat → Bool} {evs : List (Ev V A)} {s s' : Sys V A} {e : Option (Ev V A)} (hb : Book evs s)
    (hs : MStep blocks s e s') : Book (evs ++ e.toList) s' := by
  cases hs with
  | @other e t' h =>
    have h1 : matchCalls (e.map Ev.other).toList = ([] : List (Query V × (A → Bool))) := by cases e <;> rfl
    have h2 : ∀ m, reports m (e.map Ev.other).toList = [] := by intro m; cases e <;> rfl
    have h3 : ∀ m got, Ev.ret m got ∉ (e.map Ev.other).toList := by intro m got h; cases e <;> simp at h
    refine ⟨?_, ?_, ?_, ?_⟩
    · rw [matchCalls_append, h1, List.append_nil]; exact hb.calls
    · intro m x hm; rw [reports_append, h2, List.append_nil]; exact hb.reps m x hm
    · intro m hm; rw [reports_append, h2, List.append_nil]
      refine ⟨(hb.later m hm).1, fun got h => ?_⟩
      rcases List.mem_append.1 h with h | h
      · exact (hb.later m hm).2 got h
      · exact h3 _ _ h
    · intro m x got hm h
      rcases List.mem_append.1 h with h | h
      · exact hb.rets m x got hm h
      · exact absurd h (h3 _ _)
  | call q more hq =>
    refine ⟨?_, ?_, ?_, ?_⟩
    · rw [matchCalls_append, ← hb.calls]; simp [matchCalls]
    · intro m x hm
      rw [reports_append]
      rcases get_append hm with ⟨e, e'⟩ | hm
      · subst e; subst e'; rw [(hb.later _ (Nat.le_refl _)).1]; rfl
      · rw [← hb.reps m x hm]; simp [reports]
    · intro m hm
      simp only [List.length_append, List.length_cons, List.length_nil] at hm
      rw [reports_append, (hb.later m (by omega)).1]
      refine ⟨rfl, fun got h => ?_⟩
      rcases List.mem_append.1 h with h | h
      · exact (hb.later m (by omega)).2 got h
      · simp at h
    · intro m x got hm h
      have h' : Ev.ret m got ∈ evs := by
        rcases List.mem_append.1 h with h | h
        · exact h
        · simp at h
      rcases get_append hm with ⟨e, e'⟩ | hm
      · subst e; exact absurd h' ((hb.later _ (Nat.le_refl _)).2 got)
      · exact hb.rets m x got hm h'
  | read m x hm hp hn =>
    refine hb.moves (e := none) hm (by simp [hp]) rfl (fun _ _ => rfl) ?_ (by simp)
    rw [hp]
    unfold nextRead at hn
    split at hn
    · cases hn; rfl
    · split at hn <;> cases hn; rfl
  | group m x keys order hm hp hk ho => exact hb.moves (e := none) hm (by simp [hp]) rfl (fun _ _ => rfl) (by rw [hp]; rfl) (by simp)
  | @report m x id rest got it hm hp hd hbz hit =>
    refine hb.moves hm (by simp [hp]) rfl (fun m' h => ?_) ?_ (by simp)
    · simp [reports, Ne.symm h]
    · rw [hp]; unfold afterReport; split <;> simp [Phase.got, reports]
  | miss m x hm hp hd => exact hb.moves hm (by simp [hp]) rfl (fun _ _ => rfl) (by rw [hp]; simp [afterMiss, Phase.got, reports]) (by simp)
  | finish m x hm hp => exact hb.moves (e := none) hm (by simp [hp]) rfl (fun _ _ => rfl) (by rw [hp]; simp [Phase.got, reports]) (by simp)
  | @ret m x got hm hp hr =>
    have hlt : m < s.ms.length := (List.getElem?_eq_some_iff.1 hm).1
    refine ⟨?_, ?_, ?_, ?_⟩
    · rw [matchCalls_append, ← hb.calls]; simp only [matchCalls, Option.toList, List.append_nil]
      exact map_set_same (x := x) (y := { x with returned := true }) hm rfl
    · intro u z hu
      rw [reports_append]
      rcases get_set hm hu with ⟨e, e'⟩ | ⟨hne, hu⟩
      · subst e; subst e'
        rw [← hb.reps u x hm]; simp [reports]
      · rw [← hb.reps u z hu]; simp [reports]
    · intro u hu
      simp only [List.length_set] at hu
      rw [reports_append, (hb.later u hu).1]
      refine ⟨rfl, fun got' h => ?_⟩
      rcases List.mem_append.1 h with h | h
      · exact (hb.later u hu).2 got' h
      · simp at h; omega
    · intro u z got' hu h
      rcases get_set hm hu with ⟨e, e'⟩ | ⟨hne, hu⟩
      · subst e; subst e'
        rcases List.mem_append.1 h with h | h
        · have := (hb.rets u x got' hm h).2; rw [hr] at this; cases this
        · simp at h; subst h; exact ⟨hp, rfl⟩
      · rcases List.mem_append.1 h with h | h
        · exact hb.rets u z got' hu h
        · simp at h; exact absurd h.1 hne

theorem Book.run [DecidableEq V] {blocks : (Nat → Option (Item V A)) → Nat → Nat → Bool} {P : Sys V A → Prop} {s s' : Sys V A} {l k : List (Ev V A)} (hb : Book l s)
    (hr : MRun blocks P s k s') : Book (l ++ k) s' := by
  induction hr with
  | nil _ => rw [List.append_nil]; exact hb
  | step _ h' _ ih => rw [← List.append_assoc]; exact ih.step h'

/-! ### Nothing that stays is missed, unless the match is cut short -/

/-- An item that is there and is not being destroyed is in the index. -/
theorem present_indexed {s : St V A} (hi : Inv s) {id : Nat} {it : Item V A} (h : s.item id = some it) (hd : id ∉ s.destroying) {p : GoString × V} (hp : p ∈ it.kvs) :
    id ∈ s.content p it.kvs.length := by
  have hl : 1 ≤ it.kvs.length := List.length_pos_iff.2 (hi.cont.itm id it h).2.1
  refine (hi.cont.mem p _ id hl).2 (Or.inl ⟨it, h, hp, rfl, ?_⟩)
  intro u th todo hu hw
  exact absurd ((hi.cont.des.2 id).2 ⟨u, th, hu, hw.1, Or.inr ⟨todo, hw.2⟩⟩) hd

/-- Where a match is with respect to an item that stays: `cut` says that it was cut short. -/
def Watch (cut : Prop) (id : Nat) (it : Item V A) (x : Matcher V A) : Prop :=
  match x.phase with
  | .read todo found => ∃ before, pairs x.query = before ++ todo ∧ ∀ p ∈ it.kvs, p ∈ before → id ∈ idsAt found p.1 (it.kvs.length - 1)
  | .visit ids got => id ∈ ids ∨ (id, it) ∈ got
  | .done got => (id, it) ∈ got ∨ (∃ y ∈ got, x.more y.2.val = false) ∨ cut

theorem Watch.read {s : St V A} (hi : Inv s) {cut : Prop} {id : Nat} {it : Item V A} (hit : s.item id = some it) (hd : id ∉ s.destroying) {x : Matcher V A} {p : GoString × V}
    {rest : List (GoString × V)} {found : List (GoString × List (List Nat))} {ph : Phase V A} (h : Watch cut id it x) (hp : x.phase = .read (p :: rest) found)
    (hn : nextRead s found p rest = some ph) : Watch cut id it { x with phase := ph } := by
  unfold Watch at h
  rw [hp] at h
  obtain ⟨before, hb, h3⟩ := h
  have hb' : pairs x.query = (before ++ [p]) ++ rest := by rw [hb]; simp
  have hl : 1 ≤ it.kvs.length := List.length_pos_iff.2 (hi.cont.itm id it hit).2.1
  unfold nextRead at hn
  split at hn
  next hx =>
    cases hn
    refine ⟨_, hb', ?_⟩
    intro r hr hrb
    rcases List.mem_append.1 hrb with hrb | hrb
    · exact h3 r hr hrb
    · rw [List.mem_singleton] at hrb
      subst hrb
      have := present_indexed hi hit hd hr
      rw [AssocConc.content_none hx] at this
      cases this
  next i hx =>
    split at hn
    · cases hn
    · cases hn
      refine ⟨_, hb', ?_⟩
      intro r hr hrb
      rw [mem_record]
      rcases List.mem_append.1 hrb with hrb | hrb
      · exact Or.inl (h3 r hr hrb)
      · rw [List.mem_singleton] at hrb
        subst hrb
        refine Or.inr ⟨rfl, ?_⟩
        rw [node_content hx, Nat.sub_add_cancel hl]
        exact present_indexed hi hit hd hr

theorem Watch.group {s : St V A} (hi : Inv s) {cut : Prop} {id : Nat} {it : Item V A} (hit : s.item id = some it) {x : Matcher V A} {found : List (GoString × List (List Nat))}
    {keys : List GoString} {order : List GoString → List Nat} (h : Watch cut id it x) (hok : MOk s x) (hp : x.phase = .read [] found) (hq : Matches x.query it.kvs)
    (hk : keys.Perm (found.map (·.1))) (ho : ∀ g, (order g).Perm (Assoc.groupIds found g)) : Watch cut id it { x with phase := .visit (targets keys order) [] } := by
  unfold Watch at h
  unfold MOk at hok
  rw [hp] at h hok
  obtain ⟨before, hb, h3⟩ := h
  rw [List.append_nil] at hb
  obtain ⟨_, hne, hs⟩ := hi.cont.itm id it hit
  have hall : ∀ p ∈ it.kvs, id ∈ idsAt found p.1 (it.kvs.length - 1) := fun p hp => h3 p hp (hb ▸ matches_iff.1 hq p hp)
  have hnd : keys.Nodup := hk.nodup_iff.2 hok.2.1
  have hkn : (it.kvs.map (·.1)).Nodup := by
    rw [List.Nodup, List.pairwise_map]
    refine List.Pairwise.imp ?_ hs
    intro a b hab e
    rw [e, strLt_irrefl] at hab; cases hab
  let g := keys.filter fun k => decide (k ∈ it.kvs.map (·.1))
  have hgk : ∀ k, k ∈ g ↔ k ∈ it.kvs.map (·.1) := by
    intro k
    simp only [g, List.mem_filter, decide_eq_true_eq]
    refine ⟨fun h => h.2, fun h => ⟨?_, h⟩⟩
    obtain ⟨p, hp, rfl⟩ := List.mem_map.1 h
    exact hk.mem_iff.2 (idsAt_key (hall p hp))
  have hgs : g.Sublist keys := List.filter_sublist
  have hgp : g.Perm (it.kvs.map (·.1)) := (List.perm_ext_iff_of_nodup (hgs.nodup hnd) hkn).2 hgk
  have hgl : g.length = it.kvs.length := by rw [hgp.length_eq, List.length_map]
  have hgne : g ≠ [] := by
    intro e; rw [e] at hgl; exact hne (List.length_eq_zero_iff.1 hgl.symm)
  refine Or.inl (mem_targets.2 ⟨g, hgne, hgs, (ho g).mem_iff.2 (((Assoc.groupIds_spec hgne).2 id).2 ?_)⟩)
  intro k hk
  obtain ⟨p, hp, rfl⟩ := List.mem_map.1 ((hgk k).1 hk)
  rw [hgl]
  exact hall p hp

/-- Match `m` and the item, during the match. -/
def WatchAt (cut : Prop) (m id : Nat) (it : Item V A) (q : Query V) (more : A → Bool) (s : Sys V A) : Prop :=
  ∃ x, s.ms[m]? = some x ∧ x.query = q ∧ x.more = more ∧ Watch cut id it x

theorem WatchAt.mono {c d : Prop} (hcd : c → d) {m id : Nat} {it : Item V A} {q : Query V} {more : A → Bool} {s : Sys V A} (h : WatchAt c m id it q more s) : WatchAt d m id it q more s := by
  obtain ⟨x, h1, h2, h3, h4⟩ := h
  refine ⟨x, h1, h2, h3, ?_⟩
  unfold Watch at h4 ⊢
  split at h4
  · exact h4
  · exact h4
  · exact h4.imp_right (Or.imp_right hcd)

theorem WatchAt.set {c : Prop} {m m' id : Nat} {it : Item V A} {q : Query V} {more : A → Bool} {s : Sys V A} {x y : Matcher V A} (h : WatchAt c m id it q more s) (hm : s.ms[m']? = some x)
    (h1 : y.query = x.query) (h2 : y.more = x.more) (h3 : m = m' → Watch c id it x → Watch c id it y) : WatchAt c m id it q more { s with ms := s.ms.set m' y } := by
  obtain ⟨z, hz, e1, e2, hw⟩ := h
  by_cases e : m = m'
  · subst e
    rw [hz] at hm; cases hm
    exact ⟨y, by rw [AssocConc.set_get hz, if_pos rfl], h1.trans e1, h2.trans e2, h3 rfl hw⟩
  · exact ⟨z, by rw [AssocConc.set_get hm, if_neg e]; exact hz, e1, e2, hw⟩

theorem WatchAt.step [DecidableEq V] {blocks : (Nat → Option (Item V A)) → Nat → Nat → Bool} {s s' : Sys V A} {e : Option (Ev V A)} {c : Prop} {m id : Nat} {it : Item V A} {q : Query V}
    {more : A → Bool} (hi : Inv s.tree) (ha : AllOk s) (hpr : Present id it s) (hq : Matches q it.kvs) (h : WatchAt c m id it q more s) (hs : MStep blocks s e s')
    (hcut : ∀ y, e = some (.miss m y) → c) : WatchAt c m id it q more s' := by
  have hqq : ∀ {m' : Nat} {x : Matcher V A}, s.ms[m']? = some x → m = m' → x.query = q := by
    intro m' x hm e
    subst e
    obtain ⟨z, hz, e1, _⟩ := h
    rw [hm] at hz; cases hz; exact e1
  cases hs with
  | other h' =>
    obtain ⟨x, h1, h2⟩ := h
    exact ⟨x, h1, h2⟩
  | call q' more' hq' =>
    obtain ⟨x, h1, h2⟩ := h
    exact ⟨x, by rw [List.getElem?_append_left (List.getElem?_eq_some_iff.1 h1).1]; exact h1, h2⟩
  | read m' x hm hp hn => exact h.set hm rfl rfl (fun _ hw => hw.read hi hpr.1 hpr.2 hp hn)
  | group m' x keys order hm hp hk ho => exact h.set hm rfl rfl (fun e hw => hw.group hi hpr.1 (ha m' x hm) hp (hqq hm e ▸ hq) hk ho)
  | @report m' x id' rest got it' hm hp hd hb hit =>
    refine h.set hm rfl rfl (fun e hw => ?_)
    unfold Watch at hw
    rw [hp] at hw
    have hin : id ∈ rest ∨ (id, it) ∈ got ++ [(id', it')] := by
      rcases hw with hw | hw
      · rcases List.mem_cons.1 hw with e | hw
        · subst e
          have := hpr.1
          rw [hit] at this; cases this
          exact Or.inr (by simp)
        · exact Or.inl hw
      · exact Or.inr (List.mem_append_left _ hw)
    unfold afterReport
    split
    · exact hin
    next hm' => exact Or.inr (Or.inl ⟨(id', it'), by simp, by simpa using hm'⟩)
  | @miss m' x id' rest got hm hp hd =>
    refine h.set hm rfl rfl (fun e hw => ?_)
    subst e
    exact Or.inr (Or.inr (hcut id' rfl))
  | finish m' x hm hp =>
    refine h.set hm rfl rfl (fun e hw => ?_)
    unfold Watch at hw
    rw [hp] at hw
    rcases hw with hw | hw
    · cases hw
    · exact Or.inl hw
  | ret m' x hm hp hr =>
    refine h.set hm rfl rfl (fun e hw => ?_)
    exact hw

theorem WatchAt.run [DecidableEq V] {blocks : (Nat → Option (Item V A)) → Nat → Nat → Bool} {s s' : Sys V A} {k : List (Ev V A)} {c : Prop} {m id : Nat} {it : Item V A} {q : Query V}
    {more : A → Bool} (hi : Inv s.tree) (ha : AllOk s) (hq : Matches q it.kvs) (h : WatchAt c m id it q more s) (hr : MRun blocks (Present id it) s k s')
    (hc : ∀ c ∈ others k, c.creates = true) (hcut : ∀ y, Ev.miss m y ∈ k → c) : WatchAt c m id it q more s' := by
  induction hr with
  | nil _ => exact h
  | @step s1 s2 evs e hrun hs hP ih =>
    rw [others_append] at hc
    have hc' := fun c h => hc c (List.mem_append_left _ h)
    have hP1 : Present id it s1 := by cases hrun <;> assumption
    exact (ih hc' fun y h => hcut y (List.mem_append_left _ h)).step (inv_run hi hrun hc') (AllOk.run hi ha hrun hc') hP1 hq hs
      (fun y he => hcut y (List.mem_append_right _ (by simp [he])))

theorem call_state [DecidableEq V] {blocks : (Nat → Option (Item V A)) → Nat → Nat → Bool} {s s' : Sys V A} {q : Query V} {more : A → Bool} (hs : MStep blocks s (some (.call q more)) s') :
    s' = { s with ms := s.ms ++ [⟨q, more, .read (pairs q) [], false⟩] } := by
  generalize he : (some (Ev.call q more)) = e at hs
  cases hs with
  | call q' more' hq => cases he; rfl
  | @other e t' h => cases e <;> cases he
  | _ => cases he

/-- An item that stays throughout a match and matches is reported, unless the match was cut short. -/
theorem complete [DecidableEq V] [Inhabited V] {blocks : (Nat → Option (Item V A)) → Nat → Nat → Bool} {P : Sys V A → Prop} {l k : List (Ev V A)} {s1 s2 s3 : Sys V A} {q : Query V}
    {more : A → Bool} {id : Nat} {it : Item V A} {got : List (Nat × Item V A)} (h1 : MRun blocks P Sys.init l s1) (h2 : MStep blocks s1 (some (.call q more)) s2)
    (h3 : MRun blocks (Present id it) s2 k s3) (hc : ∀ c ∈ others l ++ others k, c.creates = true) (hq : Matches q it.kvs) (hret : Ev.ret (matchCalls l).length got ∈ k) :
    (id, it) ∈ got ∨ (∃ y ∈ got, more y.2.val = false) ∨ ∃ y, Ev.miss (matchCalls l).length y ∈ k := by
  have hc1 := fun c h => hc c (List.mem_append_left _ h)
  have hc2 := fun c h => hc c (List.mem_append_right _ h)
  have hi1 : Inv s1.tree := inv_run AssocConc.Inv.init h1 hc1
  have ha1 : AllOk s1 := AllOk.run AssocConc.Inv.init (fun m x hm => by simp [Sys.init] at hm) h1 hc1
  have hb1 : Book l s1 := Book.run Book.init h1
  have hlen : (matchCalls l).length = s1.ms.length := by rw [← hb1.calls, List.length_map]
  have e2 := call_state h2
  have hi2 : Inv s2.tree := by rw [e2]; exact hi1
  have ha2 : AllOk s2 := ha1.step hi1 h2
  have hb3 : Book (l ++ [.call q more] ++ k) s3 := (hb1.step h2).run h3
  have hw2 : WatchAt (∃ y, Ev.miss (matchCalls l).length y ∈ k) (matchCalls l).length id it q more s2 := by
    refine ⟨⟨q, more, .read (pairs q) [], false⟩, by rw [e2, hlen]; simp, rfl, rfl, [], rfl, fun p _ h => by cases h⟩
  obtain ⟨x, hx, e1, e3, hw⟩ := hw2.run hi2 ha2 hq h3 hc2 (fun y h => ⟨y, h⟩)
  have := (hb3.rets _ x got hx (List.mem_append_right _ hret)).1
  unfold Watch at hw
  rw [this] at hw
  rw [← e3]
  exact hw

end Willow.MatchConc
