import Verif.Proofs.MatchConcExec
import Verif.Props.AssocConc
/-
Property C90: matches (MatchAction: which items' key-values are contained in these?) while other calls create and remove items.

`MRun blocks P s evs s'`: some interleaving of the steps of matches and of any number of other calls (C86), in which every state satisfies `P`.
-/
namespace Willow.Props
open Willow.AssocConc (Op)
open Willow.MatchConc (Query Matches Present others matchCalls reports NoneRemoving MStep MRun MOp)
open AC

variable {V A : Type} [DecidableEq V] [Inhabited V]

/-- C90.  What the callback of a match is called with is there at that moment, nobody has begun to destroy it, and its key-values match the query. -/
theorem C90_reported_matches (blocks : (Nat → Option (AssocConc.Item V A)) → Nat → Nat → Bool) (evs : List (MatchConc.Ev V A)) (s s' : MatchConc.Sys V A) (m id : Nat) (it : AssocConc.Item V A)
    (h : MRun blocks (fun _ => True) MatchConc.Sys.init evs s) (hc : ∀ c ∈ others evs, c.creates = true) (hs : MStep blocks s (some (.report m id it)) s') :
    Present id it s ∧ ∃ q more, (matchCalls evs)[m]? = some (q, more) ∧ Matches q it.kvs := by
  obtain ⟨h1, x, hx, h2⟩ := MatchConc.report_matches h hc hs
  have hb : MatchConc.Book evs s := by simpa using MatchConc.Book.run MatchConc.Book.init h
  exact ⟨h1, x.query, x.more, by rw [← hb.calls, List.getElem?_map, hx]; rfl, h2⟩

/-- C90.  No item is reported twice by one match. -/
theorem C90_reported_once (blocks : (Nat → Option (AssocConc.Item V A)) → Nat → Nat → Bool) (evs : List (MatchConc.Ev V A)) (s : MatchConc.Sys V A) (m : Nat)
    (h : MRun blocks (fun _ => True) MatchConc.Sys.init evs s) (hc : ∀ c ∈ others evs, c.creates = true) : ((reports m evs).map (·.1)).Nodup :=
  MatchConc.reported_once h hc m

/-- C90.  A callback that asks for no more is not called again. -/
theorem C90_stops (blocks : (Nat → Option (AssocConc.Item V A)) → Nat → Nat → Bool) (evs : List (MatchConc.Ev V A)) (s : MatchConc.Sys V A) (m i : Nat) (q : Query V) (more : A → Bool)
    (y : Nat × AssocConc.Item V A) (h : MRun blocks (fun _ => True) MatchConc.Sys.init evs s) (hm : (matchCalls evs)[m]? = some (q, more)) (hi : (reports m evs)[i]? = some y)
    (hy : more y.2.val = false) : i + 1 = (reports m evs).length :=
  MatchConc.stops h hm hi hy

/-- C90, in part.  An item that matches, is there when the match is called, and that nobody begins to destroy before the match has returned, has been reported, unless the callback asked for
no more or the match came across an id whose item was being destroyed or gone.  Missing: the last case; see `C90_violated_stable_item_missed`. -/
theorem C90_complete_partial (blocks : (Nat → Option (AssocConc.Item V A)) → Nat → Nat → Bool) (l k : List (MatchConc.Ev V A)) (s1 s2 s3 : MatchConc.Sys V A) (q : Query V) (more : A → Bool)
    (id : Nat) (it : AssocConc.Item V A) (got : List (Nat × AssocConc.Item V A)) (h1 : MRun blocks (fun _ => True) MatchConc.Sys.init l s1) (h2 : MStep blocks s1 (some (.call q more)) s2)
    (h3 : MRun blocks (Present id it) s2 k s3) (hc : ∀ c ∈ others l ++ others k, c.creates = true) (hq : Matches q it.kvs) (hret : .ret (matchCalls l).length got ∈ k) :
    (id, it) ∈ got ∨ (∃ y ∈ got, more y.2.val = false) ∨ ∃ y, .miss (matchCalls l).length y ∈ k :=
  MatchConc.complete h1 h2 h3 hc hq hret

/-- C90.  If nothing is being removed when a match is called, and nothing is removed while it runs, it reports every item that matches and is there when it is called, unless the
callback asks for no more; new items may be created all the while. -/
theorem C90_complete_without_removals (blocks : (Nat → Option (AssocConc.Item V A)) → Nat → Nat → Bool) (l k : List (MatchConc.Ev V A)) (s1 s2 s3 : MatchConc.Sys V A) (q : Query V) (more : A → Bool)
    (id : Nat) (it : AssocConc.Item V A) (got : List (Nat × AssocConc.Item V A)) (h1 : MRun blocks (fun _ => True) MatchConc.Sys.init l s1) (h2 : MStep blocks s1 (some (.call q more)) s2)
    (h3 : MRun blocks (fun _ => True) s2 k s3) (hl : ∀ c ∈ others l, c.creates = true) (hk : ∀ c ∈ others k, c.creates = true ∧ c.removes = false) (hn : NoneRemoving l)
    (hit : s1.tree.item id = some it) (hq : Matches q it.kvs) (hret : .ret (matchCalls l).length got ∈ k) :
    (id, it) ∈ got ∨ ∃ y ∈ got, more y.2.val = false := by
  have hi : AssocConc.Inv s1.tree := MatchConc.inv_run AssocConc.Inv.init h1 hl
  have hh : MatchConc.Hist l s1.tree := by simpa using MatchConc.Hist.run AssocConc.Inv.init MatchConc.Hist.init h1 hl
  have e2 := MatchConc.call_state h2
  have ht : s2.tree = s1.tree := by rw [e2]
  have hqu : MatchConc.Quiet s1.tree := hh.quiet hn
  have hp := MatchConc.present_quiet (ht ▸ hi) (ht ▸ hqu) h3 hk (ht ▸ hit)
  rcases MatchConc.complete h1 h2 hp.1 (fun c hc => by
    rcases List.mem_append.1 hc with h | h
    · exact hl c h
    · exact (hk c h).1) hq hret with h | h | ⟨y, h⟩
  · exact Or.inl h
  · exact Or.inr h
  · exact absurd h (MatchConc.complete_quiet h1 h2 h3 hl hk hn y)

/-- C90.  When a match returns, `got` is what its callback was called with. -/
theorem C90_returned (blocks : (Nat → Option (AssocConc.Item V A)) → Nat → Nat → Bool) (evs : List (MatchConc.Ev V A)) (s : MatchConc.Sys V A) (m : Nat) (got : List (Nat × AssocConc.Item V A))
    (h : MRun blocks (fun _ => True) MatchConc.Sys.init evs s) (hr : .ret m got ∈ evs) : got = reports m evs := by
  have hb : MatchConc.Book evs s := by simpa using MatchConc.Book.run MatchConc.Book.init h
  cases hm : s.ms[m]? with
  | none => exact absurd hr ((hb.later m (by simpa using hm)).2 got)
  | some x =>
    have := (hb.rets m x got hm hr).1
    rw [← hb.reps m x hm, this]; rfl

namespace MC

/-- The query of key-values a=1, b=2: every key with its value and with 0, which stands for `any` in the examples. -/
def q : Query Nat := [([97], [1, 0]), ([98], [2, 0])]

/-- Ask for everything. -/
def all : Nat → Bool := fun _ => true

/-- Ask for nothing after 7. -/
def not7 : Nat → Bool := fun n => n != 7

/-- Items {a=1} with id 1 and {a=1,b=2} with id 2. -/
def twoItems : List (MOp Nat Nat) :=
  [.others (.call (.create [pa] 7) :: goes 0 7 1 ++ [.ret 0, .call (.create [pa, pb] 8)] ++ goes 1 10 2 ++ [.ret 1])]

def goes (m n : Nat) : List (MOp Nat Nat) := List.replicate n (.go m)

/-- The events of a script. -/
def twoItemsEvs : List (MatchConc.Ev Nat Nat) :=
  [.other (.call (.create [pa] 7)), .other (.ret 0 (.created 1)), .other (.call (.create [pa, pb] 8)), .other (.ret 1 (.created 2))]

/-- Item `id` is there and nobody has begun to destroy it, as a program. -/
def present (id : Nat) (it : AssocConc.Item Nat Nat) (s : MatchConc.Sys Nat Nat) : Bool :=
  (match s.tree.item id with
    | some x => decide (x.kvs = it.kvs) && decide (x.val = it.val)
    | none => false) && !(s.tree.destroying.contains id)

theorem present_iff {id : Nat} {it : AssocConc.Item Nat Nat} {s : MatchConc.Sys Nat Nat} (h : present id it s = true) : Present id it s := by
  unfold present at h
  rw [Bool.and_eq_true] at h
  refine ⟨?_, by simpa using h.2⟩
  have h1 := h.1
  split at h1
  next x hx =>
    rw [hx]
    simp only [Bool.and_eq_true, decide_eq_true_eq] at h1
    cases x; cases it
    simp only at h1
    rw [h1.1, h1.2]
  · cases h1

/-- The calls of a script can be made. -/
def Fine (l : List (MOp Nat Nat)) : Prop := (∀ ops c, MOp.others ops ∈ l → Op.call c ∈ ops → c.ok) ∧ ∀ q more, MOp.call q more ∈ l → (q.map (·.1)).Nodup

theorem mono {P : MatchConc.Sys Nat Nat → Prop} (Q : MatchConc.Sys Nat Nat → Prop) (hPQ : ∀ s, P s → Q s) {s s' : MatchConc.Sys Nat Nat} {evs : List (MatchConc.Ev Nat Nat)}
    (h : MRun free P s evs s') : MRun free Q s evs s' := by
  induction h with
  | nil h => exact .nil (hPQ _ h)
  | step _ h' h ih => exact .step ih h' (hPQ _ h)

/-- A script before the match, the match is called, a script afterwards. -/
theorem runs {l k : List (MOp Nat Nat)} {el ek : List (MatchConc.Ev Nat Nat)} {more : Nat → Bool} (ok : MatchConc.Sys Nat Nat → Bool) (hl : Fine l) (hk : Fine k)
    (h : ((MatchConc.mexec free l MatchConc.Sys.init).bind fun x => (MatchConc.mexec free k { x.1 with ms := x.1.ms ++ [⟨q, more, .read (MatchConc.pairs q) [], false⟩] }).map fun y => (x.2, y.2)) = some (el, ek))
    (ha : (((MatchConc.mexec free l MatchConc.Sys.init).map fun x => MatchConc.always free ok k { x.1 with ms := x.1.ms ++ [⟨q, more, .read (MatchConc.pairs q) [], false⟩] })) = some true)
    (ha' : MatchConc.always free (fun _ => true) l MatchConc.Sys.init = true) :
    ∃ s1 s2 s3, MRun free (fun _ => True) MatchConc.Sys.init el s1 ∧ MStep free s1 (some (.call q more)) s2 ∧ MRun free (fun s => ok s = true) s2 ek s3 ∧
      ((MatchConc.mexec free l MatchConc.Sys.init).map fun x => x.1) = some s1 := by
  rw [Option.bind_eq_some_iff] at h
  obtain ⟨⟨s1, e1⟩, h1, h2⟩ := h
  rw [Option.map_eq_some_iff] at h2
  obtain ⟨⟨s3, e3⟩, h3, e⟩ := h2
  cases e
  rw [h1] at ha
  have ha := Option.some.inj ha
  have r1 := MatchConc.mexec_run (s0 := MatchConc.Sys.init) h1 hl.1 hl.2 ha' (.nil rfl)
  have r3 := MatchConc.mexec_run (evs := []) h3 hk.1 hk.2 ha (.nil (MatchConc.always_first ha))
  refine ⟨s1, _, s3, by simpa using mono (fun _ => True) (fun _ _ => trivial) r1, .call q more (by decide), by simpa using r3, by rw [h1]; rfl⟩

theorem Fine.append {l k : List (MOp Nat Nat)} (h : Fine l) (h' : Fine k) : Fine (l ++ k) :=
  ⟨fun ops c hm => (List.mem_append.1 hm).elim (h.1 ops c) (h'.1 ops c), fun q m hm => (List.mem_append.1 hm).elim (h.2 q m) (h'.2 q m)⟩

theorem fine_goes (m n : Nat) : Fine (goes m n) :=
  ⟨fun ops c h => (by have := List.eq_of_mem_replicate h; cases this), fun q more h => (by have := List.eq_of_mem_replicate h; cases this)⟩

theorem fine_others {ops : List (Op Nat Nat)} (h : ∀ c ∈ opCalls ops, c.ok) : Fine [.others ops] :=
  ⟨fun ops' c hm hc => by simp only [List.mem_singleton, MOp.others.injEq] at hm; subst hm; exact h c (mem_opCalls hc), fun q more hm => by simp at hm⟩

theorem fine_two : Fine twoItems :=
  fine_others (by simp [opCalls, AC.goes, List.replicate, AssocConc.Call.ok, AssocConc.Call.kvs, AssocConc.Sorted, pa, pb, strLt])

/-- The other calls while a match runs: a create of {b=2}. -/
def createB : List (MOp Nat Nat) := [.others (.call (.create [pb] 9) :: AC.goes 2 7 3 ++ [.ret 2])]

theorem fine_createB : Fine createB :=
  fine_others (by simp [opCalls, AC.goes, List.replicate, AssocConc.Call.ok, AssocConc.Call.kvs, AssocConc.Sorted, pb])

/-- Items {a=1} and {a=1,b=2}; a match, with a create of {b=2} while it runs. -/
theorem create_run : ∃ s1 s2 s3, MRun free (fun _ => True) MatchConc.Sys.init twoItemsEvs s1 ∧ MStep free s1 (some (.call q all)) s2 ∧
    MRun free (fun _ => True) s2 [.other (.call (.create [pb] 9)), .other (.ret 2 (.created 3)), .report 0 1 ⟨[pa], 7⟩, .report 0 3 ⟨[pb], 9⟩, .report 0 2 ⟨[pa, pb], 8⟩,
      .ret 0 [(1, ⟨[pa], 7⟩), (3, ⟨[pb], 9⟩), (2, ⟨[pa, pb], 8⟩)]] s3 ∧ s1.tree.item 2 = some ⟨[pa, pb], 8⟩ := by
  obtain ⟨s1, s2, s3, h1, h2, h3, h4⟩ := runs (l := twoItems) (k := createB ++ goes 0 10) (more := all) (el := twoItemsEvs)
    (ek := [.other (.call (.create [pb] 9)), .other (.ret 2 (.created 3)), .report 0 1 ⟨[pa], 7⟩, .report 0 3 ⟨[pb], 9⟩, .report 0 2 ⟨[pa, pb], 8⟩,
      .ret 0 [(1, ⟨[pa], 7⟩), (3, ⟨[pb], 9⟩), (2, ⟨[pa, pb], 8⟩)]]) (fun _ => true) fine_two (fine_createB.append (fine_goes _ _)) rfl (by decide +kernel) (by decide +kernel)
  refine ⟨s1, s2, s3, h1, h2, by simpa using h3, ?_⟩
  have : ((MatchConc.mexec free twoItems MatchConc.Sys.init).map fun x => x.1.tree.item 2) = some (some ⟨[pa, pb], 8⟩) := rfl
  rw [Option.map_eq_some_iff] at this h4
  obtain ⟨x, e1, e2⟩ := this
  obtain ⟨y, e3, e4⟩ := h4
  rw [e1] at e3
  cases e3; subst e4; exact e2

/-- The destruction of {a=1} has begun; the match is called. -/
def destroyA : List (MOp Nat Nat) := [.others [.call (.destroy 1 all), .go 2 0]]

theorem fine_destroyA : Fine destroyA := fine_others (by simp [opCalls, AssocConc.Call.ok])

/-- A script that works is a run. -/
theorem script {l : List (MOp Nat Nat)} {el : List (MatchConc.Ev Nat Nat)} (hl : Fine l) (h : (MatchConc.mexec free l MatchConc.Sys.init).map (·.2) = some el)
    (ha : MatchConc.always free (fun _ => true) l MatchConc.Sys.init = true) :
    ∃ s, MRun free (fun _ => True) MatchConc.Sys.init el s ∧ MatchConc.mexec free l MatchConc.Sys.init = some (s, el) := by
  rw [Option.map_eq_some_iff] at h
  obtain ⟨⟨s, e⟩, h1, h2⟩ := h
  subst h2
  have r := MatchConc.mexec_run (s0 := MatchConc.Sys.init) h1 hl.1 hl.2 ha (.nil rfl)
  exact ⟨s, by simpa using mono (fun _ => True) (fun _ _ => trivial) r, h1⟩

theorem fine_call (more : Nat → Bool) : Fine [.call q more] :=
  ⟨fun ops c h => (by simp at h), fun q' more' h => (by simp only [List.mem_singleton, MOp.call.injEq] at h; rw [h.1]; decide)⟩

end MC

/-- A match that is about to report the item {a=1}. -/
example : ∃ (evs : List (MatchConc.Ev Nat Nat)) (s s' : MatchConc.Sys Nat Nat), MRun free (fun _ => True) MatchConc.Sys.init evs s ∧ (∀ c ∈ others evs, c.creates = true) ∧
    MStep free s (some (.report 0 1 ⟨[pa], 7⟩)) s' := by
  obtain ⟨s, h, e⟩ := MC.script (l := MC.twoItems ++ [.call MC.q MC.all] ++ MC.goes 0 5) (el := MC.twoItemsEvs ++ [.call MC.q MC.all]) ((MC.fine_two.append (MC.fine_call _)).append (MC.fine_goes _ _)) rfl
    (by decide +kernel)
  refine ⟨_, s, _, h, by simp [MC.twoItemsEvs, others, AssocConc.Call.creates], MatchConc.go_step (m := 0) (s' := ((MatchConc.go free s 0).map (·.1)).getD s) ?_⟩
  have : ((MatchConc.mexec free (MC.twoItems ++ [.call MC.q MC.all] ++ MC.goes 0 5) MatchConc.Sys.init).map fun x => (MatchConc.go free x.1 0).map (·.2)) = some (some (some (.report 0 1 ⟨[pa], 7⟩))) := rfl
  rw [e] at this
  have := Option.some.inj this
  rw [Option.map_eq_some_iff] at this
  obtain ⟨x, h1, h2⟩ := this
  rw [h1, ← h2]; rfl

/-- A match that reports three items, one of which was created after it was called. -/
example : ∃ (evs : List (MatchConc.Ev Nat Nat)) (s : MatchConc.Sys Nat Nat), MRun free (fun _ => True) MatchConc.Sys.init evs s ∧ (∀ c ∈ others evs, c.creates = true) ∧
    reports 0 evs = [(1, ⟨[pa], 7⟩), (3, ⟨[pb], 9⟩), (2, ⟨[pa, pb], 8⟩)] ∧ .ret 0 (reports 0 evs) ∈ evs := by
  obtain ⟨s, h, e⟩ := MC.script (l := MC.twoItems ++ [.call MC.q MC.all] ++ MC.createB ++ MC.goes 0 10)
    (el := MC.twoItemsEvs ++ [.call MC.q MC.all, .other (.call (.create [pb] 9)), .other (.ret 2 (.created 3)), .report 0 1 ⟨[pa], 7⟩, .report 0 3 ⟨[pb], 9⟩, .report 0 2 ⟨[pa, pb], 8⟩,
      .ret 0 [(1, ⟨[pa], 7⟩), (3, ⟨[pb], 9⟩), (2, ⟨[pa, pb], 8⟩)]]) (((MC.fine_two.append (MC.fine_call _)).append MC.fine_createB).append (MC.fine_goes _ _)) rfl (by decide +kernel)
  exact ⟨_, s, h, by simp [MC.twoItemsEvs, others, AssocConc.Call.creates], rfl, by simp [MC.twoItemsEvs, reports]⟩

/-- A match whose callback asks for no more after the first item. -/
example : ∃ (evs : List (MatchConc.Ev Nat Nat)) (s : MatchConc.Sys Nat Nat), MRun free (fun _ => True) MatchConc.Sys.init evs s ∧ (matchCalls evs)[0]? = some (MC.q, MC.not7) ∧
    (reports 0 evs)[0]? = some (1, ⟨[pa], 7⟩) ∧ MC.not7 7 = false := by
  obtain ⟨s, h, e⟩ := MC.script (l := MC.twoItems ++ [.call MC.q MC.not7] ++ MC.goes 0 7)
    (el := MC.twoItemsEvs ++ [.call MC.q MC.not7, .report 0 1 ⟨[pa], 7⟩, .ret 0 [(1, ⟨[pa], 7⟩)]]) ((MC.fine_two.append (MC.fine_call _)).append (MC.fine_goes _ _)) rfl (by decide +kernel)
  exact ⟨_, s, h, rfl, rfl, rfl⟩

/-- The hypotheses of `C90_complete_partial` and `C90_complete_without_removals` hold of the item {a=1,b=2} in a run in which another item is created while the match runs. -/
example : ∃ (l k : List (MatchConc.Ev Nat Nat)) (s1 s2 s3 : MatchConc.Sys Nat Nat) (got : List (Nat × AssocConc.Item Nat Nat)), MRun free (fun _ => True) MatchConc.Sys.init l s1 ∧
    MStep free s1 (some (.call MC.q MC.all)) s2 ∧ MRun free (fun _ => True) s2 k s3 ∧ (∀ c ∈ others l, c.creates = true) ∧ (∀ c ∈ others k, c.creates = true ∧ c.removes = false) ∧ NoneRemoving l ∧
    s1.tree.item 2 = some ⟨[pa, pb], 8⟩ ∧ Matches MC.q [pa, pb] ∧ .ret (matchCalls l).length got ∈ k ∧ others k ≠ [] := by
  obtain ⟨s1, s2, s3, h1, h2, h3, h4⟩ := MC.create_run
  refine ⟨_, _, s1, s2, s3, [(1, ⟨[pa], 7⟩), (3, ⟨[pb], 9⟩), (2, ⟨[pa, pb], 8⟩)], h1, h2, h3, by simp [MC.twoItemsEvs, others, AssocConc.Call.creates],
    by simp [others, AssocConc.Call.creates, AssocConc.Call.removes], ?_, h4, by simp [Matches, MC.q, pa, pb], by simp [MC.twoItemsEvs, matchCalls], by simp [others]⟩
  intro t c ht hr
  simp only [MC.twoItemsEvs, others] at ht
  rcases t with _ | _ | t <;> simp at ht <;> subst ht <;> simp [AssocConc.Call.removes] at hr

/-- A match that comes across the id of the item {a=1}, whose destruction has begun. -/
theorem MC.destroy_run : ∃ (s1 s2 s3 : MatchConc.Sys Nat Nat), MRun free (fun _ => True) MatchConc.Sys.init (MC.twoItemsEvs ++ [.other (.call (.destroy 1 MC.all))]) s1 ∧
    MStep free s1 (some (.call MC.q MC.all)) s2 ∧ MRun free (Present 2 ⟨[pa, pb], 8⟩) s2 [.miss 0 1, .ret 0 []] s3 := by
  obtain ⟨s1, s2, s3, h1, h2, h3, h4⟩ := runs (l := twoItems ++ destroyA) (k := goes 0 7) (more := all) (el := twoItemsEvs ++ [.other (.call (.destroy 1 all))])
    (ek := [.miss 0 1, .ret 0 []]) (present 2 ⟨[pa, pb], 8⟩) (fine_two.append fine_destroyA) (fine_goes _ _) rfl (by decide +kernel) (by decide +kernel)
  exact ⟨s1, s2, s3, h1, h2, mono _ (fun s h => present_iff h) h3⟩

example : ∃ (l k : List (MatchConc.Ev Nat Nat)) (s1 s2 s3 : MatchConc.Sys Nat Nat) (got : List (Nat × AssocConc.Item Nat Nat)), MRun free (fun _ => True) MatchConc.Sys.init l s1 ∧
    MStep free s1 (some (.call MC.q MC.all)) s2 ∧ MRun free (Present 2 ⟨[pa, pb], 8⟩) s2 k s3 ∧ (∀ c ∈ others l ++ others k, c.creates = true) ∧ Matches MC.q [pa, pb] ∧
    .ret (matchCalls l).length got ∈ k := by
  obtain ⟨s1, s2, s3, h1, h2, h3⟩ := MC.destroy_run
  exact ⟨_, _, s1, s2, s3, [], h1, h2, h3, by simp [MC.twoItemsEvs, others, AssocConc.Call.creates], by simp [Matches, MC.q, pa, pb], by simp [MC.twoItemsEvs, matchCalls]⟩

/-- C90 does not hold in full.  While an item is being destroyed, a match that comes across it stops: the item {a=1,b=2} is there all the time, nobody asks to remove it, it matches, the
callback asks for everything, and the match returns without having reported it, as if nothing matched. -/
theorem C90_violated_stable_item_missed : ∃ (l k : List (MatchConc.Ev Nat Nat)) (s1 s2 s3 : MatchConc.Sys Nat Nat) (q : Query Nat), MRun free (fun _ => True) MatchConc.Sys.init l s1 ∧
    MStep free s1 (some (.call q fun _ => true)) s2 ∧ MRun free (Present 2 ⟨[pa, pb], 8⟩) s2 k s3 ∧ others l ++ others k = [.create [pa] 7, .create [pa, pb] 8, .destroy 1 fun _ => true] ∧
    Matches q [pa, pb] ∧ .ret (matchCalls l).length [] ∈ k := by
  obtain ⟨s1, s2, s3, h1, h2, h3⟩ := MC.destroy_run
  exact ⟨_, _, s1, s2, s3, MC.q, h1, h2, h3, rfl, by simp [Matches, MC.q, pa, pb], by simp [MC.twoItemsEvs, matchCalls]⟩

end Willow.Props
