import Verif.Proofs.QueryConcExec
import Verif.Props.AssocConc
import Verif.Props.Assoc
/-
Property C95: queries (QueryAction: which items satisfy this query?) while other calls create, find and remove items.

`QRun blocks P s evs s'`: some interleaving of the steps of queries and of any number of other calls (C86), in which every state satisfies `P`.
-/
namespace Willow.Props
open Willow.AssocConc (Op)
open Willow.QueryConc (Present others queryCalls reports NoNotEquals Exact asItem QStep QRun QOp)
open Willow.Assoc (Query)
open Willow.BTree (LawfulKey)
open Spec

section
variable {K A : Type} [LawfulKey K] [DecidableEq K] [Inhabited K]

/-- C95.  What the callback of a query is called with is there at that moment; nobody has begun to destroy it, unless the query is the empty one; and it satisfies the query if the query
is a valid one outside of the deviations of C20 and does not use `!=`. -/
theorem C95_reported (blocks : (Nat → Option (AssocConc.Item K A)) → Nat → Nat → Bool) (evs : List (QueryConc.Ev K A)) (s s' : QueryConc.Sys K A) (m id : Nat) (it : AssocConc.Item K A)
    (h : QRun blocks (fun _ => True) QueryConc.Sys.init evs s) (hc : ∀ c ∈ others evs, c.creates = true) (hs : QStep blocks s (some (.report m id it)) s') :
    s.tree.item id = some it ∧ ∃ q more, (queryCalls evs)[m]? = some (q, more) ∧ (¬ IsEmptyQuery q → Present id it s) ∧
      (everywhere (fun sel => Exact sel ∧ NoNotEquals sel) Asks q → IsEmptyQuery q ∨ Asks q → satisfies q (asItem id it) = true) := by
  obtain ⟨h1, x, hx, h2, h3⟩ := QueryConc.report_sure h hc hs
  have hb : QueryConc.Book evs s := by simpa using QueryConc.Book.run QueryConc.Book.init h
  refine ⟨h1, x.query, x.more, by rw [← hb.calls, List.getElem?_map, hx]; rfl, fun hne => ⟨h1, h2 hne⟩, fun he ha => h3 ⟨?_, ha⟩⟩
  exact QueryConc.everywhere_mono (fun s h => ⟨h.1, Or.inr h.2⟩) _ he

/-- C95.  If an item is there when a query is called, and nobody begins to destroy it before the query has returned, the query has reported it if and only if it satisfies the query,
unless the callback asked for no more before.  (All valid queries outside of the deviations of C20, also those with `!=`; other items may come and go all the while.) -/
theorem C95_stable (blocks : (Nat → Option (AssocConc.Item K A)) → Nat → Nat → Bool) (l k : List (QueryConc.Ev K A)) (s1 s2 s3 : QueryConc.Sys K A) (q : Query K) (more : A → Bool)
    (id : Nat) (it : AssocConc.Item K A) (got : List (Nat × AssocConc.Item K A)) (h1 : QRun blocks (fun _ => True) QueryConc.Sys.init l s1) (h2 : QStep blocks s1 (some (.call q more)) s2)
    (h3 : QRun blocks (Present id it) s2 k s3) (hc : ∀ c ∈ others l ++ others k, c.creates = true) (hq : everywhere Exact Asks q) (ha : IsEmptyQuery q ∨ Asks q)
    (hret : .ret (queryCalls l).length got ∈ k) :
    ((∃ it', (id, it') ∈ got) → satisfies q (asItem id it) = true) ∧ (satisfies q (asItem id it) = true → (id, it) ∈ got ∨ ∃ y ∈ got, more y.2.val = false) :=
  QueryConc.stable h1 h2 h3 hc hq ha hret

/-- C95.  No item is reported twice by one query. -/
theorem C95_once (blocks : (Nat → Option (AssocConc.Item K A)) → Nat → Nat → Bool) (evs : List (QueryConc.Ev K A)) (s : QueryConc.Sys K A) (m : Nat)
    (h : QRun blocks (fun _ => True) QueryConc.Sys.init evs s) : ((reports m evs).map (·.1)).Nodup :=
  QueryConc.reported_once h m

/-- C95.  A callback that asks for no more is not called again. -/
theorem C95_stops (blocks : (Nat → Option (AssocConc.Item K A)) → Nat → Nat → Bool) (evs : List (QueryConc.Ev K A)) (s : QueryConc.Sys K A) (m i : Nat) (q : Query K) (more : A → Bool)
    (y : Nat × AssocConc.Item K A) (h : QRun blocks (fun _ => True) QueryConc.Sys.init evs s) (hm : (queryCalls evs)[m]? = some (q, more)) (hi : (reports m evs)[i]? = some y)
    (hy : more y.2.val = false) : i + 1 = (reports m evs).length :=
  QueryConc.stops h hm hi hy

/-- C95.  A query in which every sub-query asks for something does not panic, whatever the other calls do. -/
theorem C95_no_panic (blocks : (Nat → Option (AssocConc.Item K A)) → Nat → Nat → Bool) (evs : List (QueryConc.Ev K A)) (s : QueryConc.Sys K A) (m : Nat) (q : Query K) (more : A → Bool)
    (h : QRun blocks (fun _ => True) QueryConc.Sys.init evs s) (hm : (queryCalls evs)[m]? = some (q, more)) (he : everywhere (fun _ => True) Asks q) (ha : IsEmptyQuery q ∨ Asks q) :
    .panic m ∉ evs :=
  QueryConc.no_panic h hm he ha

/-- C95.  When a query returns, `got` is what its callback was called with. -/
theorem C95_returned (blocks : (Nat → Option (AssocConc.Item K A)) → Nat → Nat → Bool) (evs : List (QueryConc.Ev K A)) (s : QueryConc.Sys K A) (m : Nat) (got : List (Nat × AssocConc.Item K A))
    (h : QRun blocks (fun _ => True) QueryConc.Sys.init evs s) (hr : .ret m got ∈ evs) : got = reports m evs := by
  have hb : QueryConc.Book evs s := by simpa using QueryConc.Book.run QueryConc.Book.init h
  cases hm : s.js[m]? with
  | none => exact absurd hr ((hb.later m (by simpa using hm)).2.1 got)
  | some x =>
    have := (hb.rets m x got hm hr).1
    rw [← hb.reps m x hm, this]; rfl

end

namespace QC

instance : Inhabited Key := ⟨kany⟩

/-- Ask for everything. -/
def all : Nat → Bool := fun _ => true

/-- Ask for nothing after 7. -/
def not7 : Nat → Bool := fun n => n != 7

/-- Nothing waits for destructions. -/
def free : (Nat → Option (AssocConc.Item Key Nat)) → Nat → Nat → Bool := fun _ _ _ => false

def a1 : GoString × Key := (sa, ki 1)
def b2 : GoString × Key := (sb, ki 2)

/-- `n` steps of call `t`. -/
def steps (t n pick : Nat) : List (QOp Key Nat) := List.replicate n (.other (.go t pick))

/-- Items {a:1} with id 1 and {a:1,b:2} with id 2. -/
def twoItems : List (QOp Key Nat) :=
  .other (.call (.create [a1] 7)) :: steps 0 7 1 ++ [.other (.ret 0), .other (.call (.create [a1, b2] 8))] ++ steps 1 10 2 ++ [.other (.ret 1)]

/-- The events of this script. -/
def twoItemsEvs : List (QueryConc.Ev Key Nat) :=
  [.other (.call (.create [a1] 7)), .other (.ret 0 (.created 1)), .other (.call (.create [a1, b2] 8)), .other (.ret 1 (.created 2))]

/-- A create of {b:2}, its id is 3. -/
def createB : List (QOp Key Nat) := .other (.call (.create [b2] 9)) :: steps 2 7 3 ++ [.other (.ret 2)]

/-- `a = 1`. -/
def isA : Query Key := .mk (some { kvs := [(sa, ⟨ki 1, .eq, ⟨1, 1024⟩⟩)] }) [] [] true

/-- `a >= 1 and b != 2`, or `b = 3`. -/
def mixed : Query Key :=
  .mk (some { kvs := [(sa, ⟨ki 1, .ge, ⟨1, 1024⟩⟩), (sb, ⟨ki 2, .ne, ⟨1, 1024⟩⟩)] }) [.mk (some { kvs := [(sb, ⟨ki 3, .eq, ⟨1, 1024⟩⟩)] }) [] [] true] [] true

/-- `a != 1`. -/
def notA : Query Key := .mk (some { kvs := [(sa, ⟨ki 1, .ne, ⟨1, 1024⟩⟩)] }) [] [] true

/-- A script that works is a run. -/
theorem script {l : List (QOp Key Nat)} {el : List (QueryConc.Ev Key Nat)} (hl : ∀ o ∈ l, o.Fine) (h : (QueryConc.qexec free (fun _ => true) l QueryConc.Sys.init).map (·.2) = some el) :
    ∃ s, QRun free (fun _ => True) QueryConc.Sys.init el s ∧ QueryConc.qexec free (fun _ => true) l QueryConc.Sys.init = some (s, el) := by
  rw [Option.map_eq_some_iff] at h
  obtain ⟨⟨s, e⟩, h1, h2⟩ := h
  subst h2
  exact ⟨s, by simpa using QueryConc.qexec_run (fun _ _ => trivial) AssocConc.Inv.init h1 hl (.nil trivial) (by simp [others]), h1⟩

/-- Item `id` is there and nobody has begun to destroy it, as a program. -/
def present (id : Nat) (it : AssocConc.Item Key Nat) (s : QueryConc.Sys Key Nat) : Bool :=
  (match s.tree.item id with
    | some x => decide (x.kvs = it.kvs) && decide (x.val = it.val)
    | none => false) && !(s.tree.destroying.contains id)

theorem present_iff {id : Nat} {it : AssocConc.Item Key Nat} {s : QueryConc.Sys Key Nat} (h : present id it s = true) : Present id it s := by
  unfold present at h
  rw [Bool.and_eq_true] at h
  refine ⟨?_, by simpa using h.2⟩
  have h1 := h.1
  split at h1
  next x hx =>
    rw [hx]
    simp only [Bool.and_eq_true, decide_eq_true_eq] at h1
    cases x; cases it
    simp only at h1
    rw [h1.1, h1.2]
  · cases h1

/-- The state of the queries after a query is called. -/
def called (s : QueryConc.Sys Key Nat) (q : Query Key) : QueryConc.Sys Key Nat := { s with js := s.js ++ [⟨q, all, QueryConc.start s.tree q, false⟩] }

/-- A script before the query, the query is called, a script afterwards. -/
theorem runs {l k : List (QOp Key Nat)} {el ek : List (QueryConc.Ev Key Nat)} {q : Query Key} {id : Nat} {it : AssocConc.Item Key Nat} (hl : ∀ o ∈ l, o.Fine) (hk : ∀ o ∈ k, o.Fine)
    (hc : ∀ c ∈ others el, c.creates = true) (h1 : (QueryConc.qexec free (fun _ => true) l QueryConc.Sys.init).map (·.2) = some el)
    (h2 : ((QueryConc.qexec free (fun _ => true) l QueryConc.Sys.init).bind fun x => (QueryConc.qexec free (fun _ => true) k (called x.1 q)).map (·.2)) = some ek)
    (h3 : ((QueryConc.qexec free (fun _ => true) l QueryConc.Sys.init).map fun x => present id it (called x.1 q) && (QueryConc.qexec free (present id it) k (called x.1 q)).isSome) = some true) :
    ∃ s1 s2 s3, QRun free (fun _ => True) QueryConc.Sys.init el s1 ∧ QStep free s1 (some (.call q all)) s2 ∧ QRun free (Present id it) s2 ek s3 := by
  rw [Option.map_eq_some_iff] at h1
  obtain ⟨⟨s1, e1⟩, h1, rfl⟩ := h1
  rw [h1] at h2 h3
  simp only [Option.bind_some, Option.map_eq_some_iff] at h2
  obtain ⟨⟨s3, e3⟩, h2, rfl⟩ := h2
  have h3 := Option.some.inj h3
  simp only [Bool.and_eq_true, Option.isSome_iff_exists] at h3
  obtain ⟨hp, r, h3⟩ := h3
  have := QueryConc.qexec_weaken h3
  rw [h2] at this
  cases this
  have r1 : QRun free (fun _ => True) QueryConc.Sys.init e1 s1 := by
    simpa using QueryConc.qexec_run (fun _ _ => trivial) AssocConc.Inv.init h1 hl (.nil trivial) (by simp [others])
  have hi : AssocConc.Inv s1.tree := QueryConc.inv_run AssocConc.Inv.init r1 hc
  have r3 := QueryConc.qexec_run (fun _ h => present_iff h) (s0 := called s1 q) hi h3 hk (.nil (present_iff hp)) (by simp [others])
  exact ⟨s1, called s1 q, s3, r1, .call q all, r3⟩

theorem fine_two : ∀ o ∈ twoItems, o.Fine := by
  simp [twoItems, steps, List.replicate, QOp.Fine, AssocConc.Call.ok, AssocConc.Call.creates, AssocConc.Call.kvs, AssocConc.Sorted, a1, b2, sa, sb, strLt]

theorem fine_createB : ∀ o ∈ createB, o.Fine := by
  simp [createB, steps, List.replicate, QOp.Fine, AssocConc.Call.ok, AssocConc.Call.creates, AssocConc.Call.kvs, AssocConc.Sorted, b2]

theorem fine_append {l k : List (QOp Key Nat)} (h : ∀ o ∈ l, o.Fine) (h' : ∀ o ∈ k, o.Fine) : ∀ o ∈ l ++ k, o.Fine := fun o ho => (List.mem_append.1 ho).elim (h o) (h' o)

theorem mixed_exact : everywhere Exact Asks mixed := by
  simp only [mixed, everywhere, everywhereL, Asks, Option.isSome_some, true_or, true_and, and_true, Option.some.injEq]
  refine ⟨?_, ?_⟩
  · rintro s rfl
    refine ⟨⟨by decide +kernel, ?_, by simp⟩, .inr ⟨?_, ?_⟩⟩
    · simp [ValidVQ, ValidTR, DataType.isGeneral, DataType.isAny]; decide +kernel
    · simp [TrOk]; decide +kernel
    · intro kq h1 kq' h2 c1 c2
      simp only [List.mem_cons, List.not_mem_nil, or_false] at h1 h2
      rcases h1 with rfl | rfl <;> rcases h2 with rfl | rfl <;> simp_all
  · rintro s rfl
    refine ⟨⟨by decide +kernel, ?_, by simp⟩, .inr ⟨?_, ?_⟩⟩
    · simp [ValidVQ, ValidTR, DataType.isGeneral, DataType.isAny]; decide +kernel
    · simp [TrOk]
    · simp

/-- The rest of a query `mixed`, with a create while it runs. -/
def mixedOps : List (QOp Key Nat) := [.go 0 none, .go 0 (some 0), .go 0 none, .go 0 none] ++ createB ++ [.go 0 (some 1), .go 0 none, .go 0 none, .go 0 none, .go 0 none, .go 0 none, .go 0 none, .go 0 none]

/-- The events of this script after `twoItems`. -/
def mixedEvs : List (QueryConc.Ev Key Nat) := [.other (.call (.create [b2] 9)), .other (.ret 2 (.created 3)), .report 0 1 ⟨[a1], 7⟩, .ret 0 [(1, ⟨[a1], 7⟩)]]

set_option smartUnfolding false in
theorem mixed_evs : ((QueryConc.qexec free (fun _ => true) twoItems QueryConc.Sys.init).bind fun x => (QueryConc.qexec free (fun _ => true) mixedOps (called x.1 mixed)).map (·.2)) = some mixedEvs := rfl

theorem isA_exact : everywhere (fun sel => Exact sel ∧ NoNotEquals sel) Asks isA := by
  simp only [isA, everywhere, everywhereL, and_true, Option.some.injEq]
  rintro s rfl
  refine ⟨⟨⟨by decide +kernel, ?_, by simp⟩, .inr ⟨?_, ?_⟩⟩, .inr (by simp)⟩
  · simp [ValidVQ, ValidTR, DataType.isGeneral, DataType.isAny]; decide +kernel
  · simp [TrOk]
  · simp

theorem notA_exact : everywhere Exact Asks notA := by
  simp only [notA, everywhere, everywhereL, and_true, Option.some.injEq]
  rintro s rfl
  refine ⟨⟨by decide +kernel, ?_, by simp⟩, .inr ⟨?_, ?_⟩⟩
  · simp [ValidVQ, ValidTR, DataType.isGeneral, DataType.isAny]; decide +kernel
  · simp [TrOk]
  · simp

end QC

/-- A query `a = 1` that is about to report the item {a:1}. -/
example : ∃ (evs : List (QueryConc.Ev Key Nat)) (s s' : QueryConc.Sys Key Nat), QRun QC.free (fun _ => True) QueryConc.Sys.init evs s ∧ (∀ c ∈ others evs, c.creates = true) ∧
    QStep QC.free s (some (.report 0 1 ⟨[QC.a1], 7⟩)) s' ∧ (queryCalls evs)[0]? = some (QC.isA, QC.all) ∧ everywhere (fun sel => Exact sel ∧ NoNotEquals sel) Asks QC.isA ∧ Asks QC.isA := by
  obtain ⟨s, h, e⟩ := QC.script (l := QC.twoItems ++ [.call QC.isA QC.all, .go 0 none, .go 0 (some 0), .go 0 none, .go 0 none]) (el := QC.twoItemsEvs ++ [.call QC.isA QC.all])
    (QC.fine_append QC.fine_two (by simp [QOp.Fine])) rfl
  have hc : ∀ c ∈ others (QC.twoItemsEvs ++ [.call QC.isA QC.all]), c.creates = true := by simp [QC.twoItemsEvs, others, AssocConc.Call.creates]
  refine ⟨_, s, _, h, hc, QueryConc.go_step (m := 0) (pick := none) (s' := ((QueryConc.go QC.free s 0 none).map (·.1)).getD s) (QueryConc.inv_run AssocConc.Inv.init h hc) ?_, rfl, QC.isA_exact,
    by simp [QC.isA, Asks]⟩
  have : ((QueryConc.qexec QC.free (fun _ => true) (QC.twoItems ++ [.call QC.isA QC.all, .go 0 none, .go 0 (some 0), .go 0 none, .go 0 none]) QueryConc.Sys.init).map fun x =>
      (QueryConc.go QC.free x.1 0 none).map (·.2)) = some (some (some (.report 0 1 ⟨[QC.a1], 7⟩))) := rfl
  rw [e] at this
  have := Option.some.inj this
  rw [Option.map_eq_some_iff] at this
  obtain ⟨x, h1, h2⟩ := this
  rw [h1, ← h2]; rfl

/-- The hypotheses of `C95_stable` hold of the items {a:1}, which satisfies the query, and {a:1,b:2}, which does not, in a run in which another item is created while the query runs. -/
example : ∃ (l k : List (QueryConc.Ev Key Nat)) (s1 s2 s3 : QueryConc.Sys Key Nat) (got : List (Nat × AssocConc.Item Key Nat)), QRun QC.free (fun _ => True) QueryConc.Sys.init l s1 ∧
    QStep QC.free s1 (some (.call QC.mixed QC.all)) s2 ∧ QRun QC.free (Present 1 ⟨[QC.a1], 7⟩) s2 k s3 ∧ (∀ c ∈ others l ++ others k, c.creates = true) ∧ everywhere Exact Asks QC.mixed ∧ Asks QC.mixed ∧
    .ret (queryCalls l).length got ∈ k ∧ others k ≠ [] ∧ satisfies QC.mixed (asItem 1 ⟨[QC.a1], 7⟩) = true ∧ satisfies QC.mixed (asItem 2 (⟨[QC.a1, QC.b2], 8⟩ : AssocConc.Item Key Nat)) = false := by
  obtain ⟨s1, s2, s3, h1, h2, h3⟩ := QC.runs (l := QC.twoItems) (q := QC.mixed) (id := 1) (it := ⟨[QC.a1], 7⟩)
    (k := QC.mixedOps) (el := QC.twoItemsEvs)
    (ek := QC.mixedEvs) QC.fine_two
    (QC.fine_append (QC.fine_append (by simp [QOp.Fine]) QC.fine_createB) (by simp [QOp.Fine])) (by simp [QC.twoItemsEvs, others, AssocConc.Call.creates]) rfl QC.mixed_evs (by decide +kernel)
  exact ⟨_, _, s1, s2, s3, [(1, ⟨[QC.a1], 7⟩)], h1, h2, h3, by simp [QC.twoItemsEvs, QC.mixedEvs, others, AssocConc.Call.creates], QC.mixed_exact, by simp [QC.mixed, Asks],
    by simp [QC.twoItemsEvs, QC.mixedEvs, queryCalls], by simp [QC.mixedEvs, others], by decide +kernel, by decide +kernel⟩

/-- A query that reports two items. -/
example : ∃ (evs : List (QueryConc.Ev Key Nat)) (s : QueryConc.Sys Key Nat), QRun QC.free (fun _ => True) QueryConc.Sys.init evs s ∧
    reports 0 evs = [(1, ⟨[QC.a1], 7⟩), (2, ⟨[QC.a1, QC.b2], 8⟩)] ∧ .ret 0 (reports 0 evs) ∈ evs := by
  obtain ⟨s, h, e⟩ := QC.script (l := QC.twoItems ++ [.call QC.isA QC.all, .go 0 none, .go 0 (some 0), .go 0 none, .go 0 none, .go 0 none, .go 0 none, .go 0 none, .go 0 none])
    (el := QC.twoItemsEvs ++ [.call QC.isA QC.all, .report 0 1 ⟨[QC.a1], 7⟩, .report 0 2 ⟨[QC.a1, QC.b2], 8⟩, .ret 0 [(1, ⟨[QC.a1], 7⟩), (2, ⟨[QC.a1, QC.b2], 8⟩)]])
    (QC.fine_append QC.fine_two (by simp [QOp.Fine])) rfl
  exact ⟨_, s, h, rfl, by simp [QC.twoItemsEvs, reports]⟩

/-- A query whose callback asks for no more after the first item; every sub-query of it asks for something. -/
example : ∃ (evs : List (QueryConc.Ev Key Nat)) (s : QueryConc.Sys Key Nat), QRun QC.free (fun _ => True) QueryConc.Sys.init evs s ∧ (queryCalls evs)[0]? = some (QC.isA, QC.not7) ∧
    (reports 0 evs)[0]? = some (1, ⟨[QC.a1], 7⟩) ∧ QC.not7 7 = false ∧ everywhere (fun _ => True) Asks QC.isA ∧ Asks QC.isA := by
  obtain ⟨s, h, e⟩ := QC.script (l := QC.twoItems ++ [.call QC.isA QC.not7, .go 0 none, .go 0 (some 0), .go 0 none, .go 0 none, .go 0 none, .go 0 none])
    (el := QC.twoItemsEvs ++ [.call QC.isA QC.not7, .report 0 1 ⟨[QC.a1], 7⟩, .ret 0 [(1, ⟨[QC.a1], 7⟩)]]) (QC.fine_append QC.fine_two (by simp [QOp.Fine])) rfl
  exact ⟨_, s, h, rfl, rfl, rfl, by simp [QC.isA, everywhere, everywhereL], by simp [QC.isA, Asks]⟩

/-- C95 does not hold in full: with `!=`, a query can report an item that does not satisfy it.  The query `a != 1` first searches for a = 1, then for everything; the item {a:1} that is created
between the two is reported. -/
theorem C95_violated_not_equals : ∃ (evs : List (QueryConc.Ev Key Nat)) (s : QueryConc.Sys Key Nat) (q : Query Key) (it : AssocConc.Item Key Nat),
    QRun QC.free (fun _ => True) QueryConc.Sys.init evs s ∧ (∀ c ∈ others evs, c.creates = true) ∧ everywhere Exact Asks q ∧ Asks q ∧ (queryCalls evs)[0]? = some (q, fun _ => true) ∧
    .report 0 1 it ∈ evs ∧ satisfies q (asItem 1 it) = false := by
  obtain ⟨s, h, e⟩ := QC.script (l := [.call QC.notA QC.all, .go 0 none, .go 0 none, .other (.call (.create [QC.a1] 7))] ++ QC.steps 0 7 1 ++
      [.other (.ret 0), .go 0 none, .go 0 (some 0), .go 0 none, .go 0 none, .go 0 none, .go 0 none, .go 0 none])
    (el := [.call QC.notA QC.all, .other (.call (.create [QC.a1] 7)), .other (.ret 0 (.created 1)), .report 0 1 ⟨[QC.a1], 7⟩, .ret 0 [(1, ⟨[QC.a1], 7⟩)]])
    (by simp [QC.steps, List.replicate, QOp.Fine, AssocConc.Call.ok, AssocConc.Call.creates, AssocConc.Call.kvs, AssocConc.Sorted, QC.a1]) rfl
  exact ⟨_, s, QC.notA, ⟨[QC.a1], 7⟩, h, by simp [others, AssocConc.Call.creates], QC.notA_exact, by simp [QC.notA, Asks], rfl, by simp, by decide +kernel⟩

/-- The empty query can report an item whose destruction has begun, other queries do not (`C95_reported`). -/
theorem C95_violated_empty_query_destroying : ∃ (evs : List (QueryConc.Ev Key Nat)) (s s' : QueryConc.Sys Key Nat) (q : Query Key) (it : AssocConc.Item Key Nat),
    QRun QC.free (fun _ => True) QueryConc.Sys.init evs s ∧ IsEmptyQuery q ∧ (queryCalls evs)[0]? = some (q, fun _ => true) ∧ 1 ∈ s.tree.destroying ∧ QStep QC.free s (some (.report 0 1 it)) s' := by
  let l : List (QOp Key Nat) := QC.twoItems ++ [.other (.call (.destroy 1 QC.all)), .other (.go 2 0), .call (.mk none [] [] true) QC.all]
  have hl : ∀ o ∈ l, o.Fine := QC.fine_append QC.fine_two (by simp [QOp.Fine, AssocConc.Call.ok, AssocConc.Call.creates])
  obtain ⟨s, h, e⟩ := QC.script (l := l) (el := QC.twoItemsEvs ++ [.other (.call (.destroy 1 QC.all)), .call (.mk none [] [] true) QC.all]) hl rfl
  have hc : ∀ c ∈ others (QC.twoItemsEvs ++ [.other (.call (.destroy 1 QC.all)), .call (.mk none [] [] true) QC.all]), c.creates = true := by
    simp [QC.twoItemsEvs, others, AssocConc.Call.creates]
  have hd : ((QueryConc.qexec QC.free (fun _ => true) l QueryConc.Sys.init).map fun x => x.1.tree.destroying) = some [1] := rfl
  have ht : ((QueryConc.qexec QC.free (fun _ => true) l QueryConc.Sys.init).map fun x => (QueryConc.go QC.free x.1 0 (some 1)).map (·.2)) = some (some (some (.report 0 1 ⟨[QC.a1], 7⟩))) := rfl
  rw [e] at hd ht
  have hd := Option.some.inj hd
  have ht := Option.some.inj ht
  rw [Option.map_eq_some_iff] at ht
  obtain ⟨x, h1, h2⟩ := ht
  refine ⟨_, s, x.1, .mk none [] [] true, ⟨[QC.a1], 7⟩, h, by simp [IsEmptyQuery], rfl, by simp at hd; simp [hd],
    QueryConc.go_step (m := 0) (pick := some 1) (QueryConc.inv_run AssocConc.Inv.init h hc) ?_⟩
  rw [h1, ← h2]

end Willow.Props
