import Verif.Proofs.QueryConc
/-! Runs of queries next to other calls: C95. -/
namespace Willow.QueryConc
set_option linter.unusedSectionVars false
open Willow.AssocConc (St Step Item Event Inv Call Thread Sorted)
open Willow.Assoc (Query Selection ValueQuery GSet FindState KVs)
open Willow.Spec (everywhere queryHolds Asks IsEmptyQuery)
open Willow.BTree (LawfulKey)
open Willow.MatchConc (get_set get_append map_set_same)

variable {K A : Type}

theorem others_append (l k : List (Ev K A)) : others (l ++ k) = others l ++ others k := by
  induction l with
  | nil => rfl
  | cons e l ih => cases e with
    | other e => cases e <;> simp [others, ih]
    | _ => simp [others, ih]

theorem queryCalls_append (l k : List (Ev K A)) : queryCalls (l ++ k) = queryCalls l ++ queryCalls k := by
  induction l with
  | nil => rfl
  | cons e l ih => cases e <;> simp [queryCalls, ih]

theorem reports_append (m : Nat) (l k : List (Ev K A)) : reports m (l ++ k) = reports m l ++ reports m k := by
  induction l with
  | nil => rfl
  | cons e l ih => cases e <;> simp [reports, ih] ; split <;> simp

variable [LawfulKey K] [DecidableEq K]

theorem inv_step {blocks : (Nat → Option (Item K A)) → Nat → Nat → Bool} {s s' : Sys K A} {e : Option (Ev K A)} (hi : Inv s.tree) (hs : QStep blocks s e s')
    (hc : ∀ c ∈ others e.toList, c.creates = true) : Inv s'.tree := by
  cases hs with
  | @other e t' h =>
    cases h with
    | call c hok => exact hi.call c (hc c (by simp [others])) hok
    | go t pick th ht hn => exact hi.move ht (AssocConc.next_move hi ht hn)
    | ret t th r kept ht hr hp => exact hi.ret ht
  | _ => exact hi

theorem inv_run {blocks : (Nat → Option (Item K A)) → Nat → Nat → Bool} {P : Sys K A → Prop} {s s' : Sys K A} {evs : List (Ev K A)} (hi : Inv s.tree)
    (hr : QRun blocks P s evs s') (hc : ∀ c ∈ others evs, c.creates = true) : Inv s'.tree := by
  induction hr with
  | nil _ => exact hi
  | step h h' _ ih =>
    rw [others_append] at hc
    exact inv_step (ih fun c h => hc c (List.mem_append_left _ h)) h' (fun c h => hc c (List.mem_append_right _ h))

mutual
theorem everywhere_mono {P Q : Selection K → Prop} (h : ∀ s, P s → Q s) : ∀ q : Query K, everywhere P Asks q → everywhere Q Asks q
  | .mk sel or and nl, he => by
    simp only [everywhere] at he ⊢
    exact ⟨fun s e => h s (he.1 s e), everywhereL_mono h or he.2.1, everywhereL_mono h and he.2.2⟩
theorem everywhereL_mono {P Q : Selection K → Prop} (h : ∀ s, P s → Q s) : ∀ qs : List (Query K), Spec.everywhereL P Asks qs → Spec.everywhereL Q Asks qs
  | [], _ => trivial
  | q :: qs, he => by
    simp only [Spec.everywhereL] at he ⊢
    exact ⟨he.1, everywhere_mono h q he.2.1, everywhereL_mono h qs he.2.2⟩
end

/-! ### Everything that is reported satisfies the query -/

/-- A query whose answers are right whatever else happens. -/
def Sure (q : Query K) : Prop := everywhere (SelFine False) Asks q ∧ (IsEmptyQuery q ∨ Asks q)

/-- Everything known about all queries. -/
def AllOk (s : Sys K A) : Prop :=
  ∀ (m : Nat) (x : Job K A), s.js[m]? = some x → Sure x.query → ∀ (id : Nat) (it : Item K A), Can s.tree id it.kvs → Ok False id it s.tree.index x x.phase

/-- What a step does to the list of queries. -/
theorem shape {blocks : (Nat → Option (Item K A)) → Nat → Nat → Bool} {s s' : Sys K A} {e : Option (Ev K A)} (hs : QStep blocks s e s') :
    (s'.js = s.js) ∨ (∃ q more, e = some (.call q more) ∧ s' = { s with js := s.js ++ [⟨q, more, start s.tree q, false⟩] }) ∨
      ∃ m y y', s.js[m]? = some y ∧ y'.query = y.query ∧ y'.more = y.more ∧ s'.js = s.js.set m y' ∧ s'.tree = s.tree := by
  have goes : ∀ {m : Nat} {y : Job K A} {ph : Phase K A} {e : Option (Ev K A)}, s.js[m]? = some y →
      ((s.to m y ph).js = s.js) ∨ (∃ q more, e = some (.call q more) ∧ s.to m y ph = { s with js := s.js ++ [⟨q, more, start s.tree q, false⟩] }) ∨
      ∃ m' y' y'', s.js[m']? = some y' ∧ y''.query = y'.query ∧ y''.more = y'.more ∧ (s.to m y ph).js = s.js.set m' y'' ∧ (s.to m y ph).tree = s.tree :=
    fun {m y ph e} hy => Or.inr (Or.inr ⟨m, y, { y with phase := ph }, hy, rfl, rfl, rfl, rfl⟩)
  cases hs with
  | other _ => exact Or.inl rfl
  | call q more => exact Or.inr (Or.inl ⟨q, more, rfl, rfl⟩)
  | search m y hy hp => exact goes hy
  | node m y p hy hp hc hn => exact goes hy
  | found m y hy hp hall => exact goes hy
  | lookup m y hy hp ho => exact goes hy
  | eval m y ids hy hp ho => exact goes hy
  | panic m y hy hp => exact goes hy
  | report m y hy hp hd hb hit => exact goes hy
  | miss m y hy hp hmi => exact goes hy
  | finish m y hy hp => exact goes hy
  | scan m y id' hy hp hn hb hit => exact goes hy
  | scanned m y hy hp hall => exact goes hy
  | ret m y hy hp hr => exact Or.inr (Or.inr ⟨m, y, { y with returned := true }, hy, rfl, rfl, rfl, rfl⟩)

/-- A query after a step was there before, or it was called. -/
theorem came {blocks : (Nat → Option (Item K A)) → Nat → Nat → Bool} {s s' : Sys K A} {e : Option (Ev K A)} (hs : QStep blocks s e s') {m : Nat} {x' : Job K A} (hm : s'.js[m]? = some x') :
    (∃ x, s.js[m]? = some x ∧ x'.query = x.query ∧ x'.more = x.more) ∨
      ∃ q more, e = some (.call q more) ∧ m = s.js.length ∧ s'.tree = s.tree ∧ x' = ⟨q, more, start s.tree q, false⟩ := by
  rcases shape hs with h | ⟨q, more, e, h⟩ | ⟨m', y, y', hy, e1, e2, h, _⟩
  · rw [h] at hm; exact Or.inl ⟨x', hm, rfl, rfl⟩
  · subst h
    rcases get_append hm with ⟨h1, h2⟩ | hm
    · exact Or.inr ⟨q, more, e, h1, rfl, h2⟩
    · exact Or.inl ⟨x', hm, rfl, rfl⟩
  · rw [h] at hm
    rcases get_set hy hm with ⟨h1, h2⟩ | ⟨_, hm⟩
    · subst h1; subst h2; exact Or.inl ⟨y, hy, e1, e2⟩
    · exact Or.inl ⟨x', hm, rfl, rfl⟩

theorem AllOk.step {blocks : (Nat → Option (Item K A)) → Nat → Nat → Bool} {s s' : Sys K A} {e : Option (Ev K A)} (hi : Inv s.tree) (h : AllOk s) (hs : QStep blocks s e s') : AllOk s' := by
  intro m x' hm' hq id it hcan
  have hcan0 : Can s.tree id it.kvs := by
    cases hs with
    | other hs => exact hcan.back hi hs
    | _ => exact hcan
  have hf : Facts False id it s.tree := ⟨hcan0, fun h => h.elim⟩
  rcases came hs hm' with ⟨x, hx, e1, e2⟩ | ⟨q, more, _, _, et, e⟩
  · obtain ⟨x'', h1, h2, h3, h4⟩ := Ok.own hi hf hs hx (h m x hx (e1 ▸ hq) id it hcan0)
    rw [hm'] at h1; cases h1
    exact (h4.job h2 h3).moves (fun h => h.elim)
  · subst e
    exact Ok.begin hq.1 hq.2 hf

theorem AllOk.run {blocks : (Nat → Option (Item K A)) → Nat → Nat → Bool} {P : Sys K A → Prop} {s s' : Sys K A} {evs : List (Ev K A)} (hi : Inv s.tree)
    (h0 : AllOk s) (hr : QRun blocks P s evs s') (hc : ∀ c ∈ others evs, c.creates = true) : AllOk s' := by
  induction hr with
  | nil _ => exact h0
  | step h h' _ ih =>
    rw [others_append] at hc
    have hc' := fun c h => hc c (List.mem_append_left _ h)
    exact (ih hc').step (inv_run hi h hc') h'

theorem AllOk.init [Inhabited K] : AllOk (Sys.init : Sys K A) := fun m x hm => by simp [Sys.init] at hm

theorem empty_selectsAll {q : Query K} : selectsAll q = true ↔ IsEmptyQuery q := by
  obtain ⟨sel, or, and, nl⟩ := q
  unfold selectsAll IsEmptyQuery
  split
  next e => cases e; simp
  next h =>
    refine ⟨(fun e => by cases e), ?_⟩
    rintro ⟨rfl, rfl, rfl, rfl⟩
    exact absurd rfl h

/-- The walk through everything belongs to the empty query, the visits to others. -/
def Fit (x : Job K A) : Prop :=
  match x.phase with
  | .scan _ _ => IsEmptyQuery x.query
  | .visit _ _ | .think _ | .search _ _ _ _ _ => ¬ IsEmptyQuery x.query
  | _ => True

theorem Fit.start (s : St K A) (q : Query K) (more : A → Bool) (b : Bool) : Fit ⟨q, more, QueryConc.start s q, b⟩ := by
  unfold Fit QueryConc.start
  simp only
  by_cases h : selectsAll q = true
  · rw [if_pos h]; exact empty_selectsAll.1 h
  · rw [if_neg h]; exact fun he => h (empty_selectsAll.2 he)

theorem fit_step {blocks : (Nat → Option (Item K A)) → Nat → Nat → Bool} {s s' : Sys K A} {e : Option (Ev K A)} (hs : QStep blocks s e s') (h : ∀ (m : Nat) (x : Job K A), s.js[m]? = some x → Fit x) :
    ∀ (m : Nat) (x : Job K A), s'.js[m]? = some x → Fit x := by
  intro m x hm
  have key : ∀ {m' : Nat} {y y' : Job K A}, s.js[m']? = some y → (Fit y → Fit y') → (s.js.set m' y')[m]? = some x → Fit x := by
    intro m' y y' hy hf hm
    rcases get_set hy hm with ⟨h1, h2⟩ | ⟨_, hm⟩
    · subst h2; exact hf (h m' y hy)
    · exact h m x hm
  have same : ∀ {y : Job K A} {p p' : Phase K A}, y.phase = p → (Fit { y with phase := p } → Fit { y with phase := p' }) → Fit y → Fit { y with phase := p' } := by
    intro y p p' e hf h
    subst e
    exact hf h
  cases hs with
  | other _ => exact h m x hm
  | call q more =>
    rcases get_append hm with ⟨_, e⟩ | hm
    · subst e; exact Fit.start _ _ _ _
    · exact h m x hm
  | search m y hy hp =>
    refine key hy (same hp ?_) hm
    exact fun h => h
  | node m y p hy hp hc hn =>
    refine key hy (same hp ?_) hm
    unfold nextNode at hn
    split at hn
    · cases hn
    · split at hn
      · cases hn
      · cases hn; exact fun h => h
  | found m y hy hp hall =>
    refine key hy (same hp ?_) hm
    exact fun h => h
  | lookup m y hy hp ho =>
    refine key hy (same hp ?_) hm
    exact fun h => h
  | eval m y ids hy hp ho =>
    refine key hy (same hp ?_) hm
    exact fun h => h
  | panic m y hy hp =>
    refine key hy (same hp ?_) hm
    exact fun _ => trivial
  | report m y hy hp hd hb hit =>
    refine key hy (same hp ?_) hm
    unfold afterReport
    split
    · exact fun h => h
    · exact fun _ => trivial
  | miss m y hy hp hmi =>
    refine key hy (same hp ?_) hm
    exact fun h => h
  | finish m y hy hp =>
    refine key hy (same hp ?_) hm
    exact fun _ => trivial
  | scan m y id' hy hp hn hb hit =>
    refine key hy (same hp ?_) hm
    unfold afterScan
    split
    · exact fun h => h
    · exact fun _ => trivial
  | scanned m y hy hp hall =>
    refine key hy (same hp ?_) hm
    exact fun _ => trivial
  | ret m y hy hp hr => exact key (y' := { y with returned := true }) hy (fun h => h) hm

theorem fit_run [Inhabited K] {blocks : (Nat → Option (Item K A)) → Nat → Nat → Bool} {P : Sys K A → Prop} {s s' : Sys K A} {evs : List (Ev K A)} (hr : QRun blocks P s evs s')
    (h0 : ∀ (m : Nat) (x : Job K A), s.js[m]? = some x → Fit x) : ∀ (m : Nat) (x : Job K A), s'.js[m]? = some x → Fit x := by
  induction hr with
  | nil _ => exact h0
  | step h h' _ ih => exact fit_step h' ih

/-- What is reported is there; and it satisfies the query. -/
theorem report_sure [Inhabited K] {blocks : (Nat → Option (Item K A)) → Nat → Nat → Bool} {P : Sys K A → Prop} {s s' : Sys K A} {evs : List (Ev K A)} {m id : Nat} {it : Item K A}
    (hr : QRun blocks P Sys.init evs s) (hc : ∀ c ∈ others evs, c.creates = true) (hs : QStep blocks s (some (.report m id it)) s') :
    s.tree.item id = some it ∧ ∃ x, s.js[m]? = some x ∧ (¬ IsEmptyQuery x.query → id ∉ s.tree.destroying) ∧ (Sure x.query → queryHolds (idOk id) it.kvs x.query = true) := by
  have hi : Inv s.tree := inv_run AssocConc.Inv.init hr hc
  have ha : AllOk s := AllOk.run AssocConc.Inv.init AllOk.init hr hc
  have hft := fit_run hr (fun m x hm => by simp [Sys.init] at hm)
  generalize he : (some (Ev.report m id it)) = e at hs
  cases hs with
  | @report m' x id' rest got it' hm hp hd hb hit =>
    cases he
    refine ⟨hit, x, hm, fun _ => hd, fun hq => ?_⟩
    have := ha m x hm hq id it (Can.item hi hit)
    rw [hp] at this
    exact this.1 (Or.inl List.mem_cons_self)
  | @scan m' x start got id' it' hm hp hn hb hit =>
    cases he
    refine ⟨hit, x, hm, fun hne => ?_, fun hq => ?_⟩
    · have := hft m x hm
      unfold Fit at this
      rw [hp] at this
      exact absurd this hne
    · have := ha m x hm hq id it (Can.item hi hit)
      rw [hp] at this
      exact this.1
  | @other e t' h => cases e <;> cases he
  | _ => cases he

/-! ### What is reported and returned -/

/-- What a query has reported, according to where it is. -/
def Phase.got : Phase K A → List (Nat × Item K A)
  | .visit _ got | .scan _ got | .done got => got
  | _ => []

/-- The query is over. -/
def Phase.over : Phase K A → Bool
  | .done _ | .panicked => true
  | _ => false

structure Book (evs : List (Ev K A)) (s : Sys K A) : Prop where
  calls : s.js.map (fun x => (x.query, x.more)) = queryCalls evs
  reps : ∀ (m : Nat) (x : Job K A), s.js[m]? = some x → x.phase.got = reports m evs
  later : ∀ m, s.js.length ≤ m → reports m evs = [] ∧ (∀ got, Ev.ret m got ∉ evs) ∧ Ev.panic m ∉ evs
  rets : ∀ (m : Nat) (x : Job K A) got, s.js[m]? = some x → Ev.ret m got ∈ evs → x.phase = .done got ∧ x.returned = true
  panics : ∀ (m : Nat) (x : Job K A), s.js[m]? = some x → Ev.panic m ∈ evs → x.phase = .panicked

theorem Book.init [Inhabited K] : Book ([] : List (Ev K A)) Sys.init :=
  ⟨rfl, fun m x h => by simp [Sys.init] at h, fun m _ => ⟨rfl, (fun _ h => by cases h), (fun h => by cases h)⟩, fun m x got h => by simp [Sys.init] at h, fun m x h => by simp [Sys.init] at h⟩

theorem start_got (s : St K A) (q : Query K) : (start s q).got = [] := by unfold start; split <;> rfl

/-- A step of query `m` that is not a return. -/
theorem Book.moves {evs : List (Ev K A)} {s : Sys K A} (hb : Book evs s) {m : Nat} {x : Job K A} (hm : s.js[m]? = some x) (hx : x.phase.over = false) {ph : Phase K A}
    {e : Option (Ev K A)} (h1 : queryCalls e.toList = []) (h2 : ∀ m', m' ≠ m → reports m' e.toList = []) (h3 : ph.got = x.phase.got ++ reports m e.toList)
    (h4 : ∀ m' got, Ev.ret m' got ∉ e.toList) (h5 : ∀ m', Ev.panic m' ∈ e.toList → m' = m ∧ ph = .panicked) : Book (evs ++ e.toList) (s.to m x ph) := by
  have hlt : m < s.js.length := (List.getElem?_eq_some_iff.1 hm).1
  refine ⟨?_, ?_, ?_, ?_, ?_⟩
  · rw [queryCalls_append, h1, List.append_nil, ← hb.calls]
    exact map_set_same (x := x) (y := { x with phase := ph }) hm rfl
  · intro u z hu
    rw [reports_append]
    rcases get_set hm hu with ⟨e, e'⟩ | ⟨hne, hu⟩
    · subst e; subst e'
      rw [← hb.reps u x hm]; exact h3
    · rw [h2 u hne, List.append_nil]; exact hb.reps u z hu
  · intro u hu
    simp only [Sys.to, List.length_set] at hu
    obtain ⟨i1, i2, i3⟩ := hb.later u hu
    rw [reports_append, i1, h2 u (by omega)]
    refine ⟨rfl, fun got h => ?_, fun h => ?_⟩
    · rcases List.mem_append.1 h with h | h
      · exact i2 got h
      · exact h4 _ _ h
    · rcases List.mem_append.1 h with h | h
      · exact i3 h
      · have := (h5 u h).1; omega
  · intro u z got hu h
    have h' : Ev.ret u got ∈ evs := by
      rcases List.mem_append.1 h with h | h
      · exact h
      · exact absurd h (h4 _ _)
    rcases get_set hm hu with ⟨e, e'⟩ | ⟨hne, hu⟩
    · subst e
      rw [(hb.rets u x got hm h').1] at hx
      cases hx
    · exact hb.rets u z got hu h'
  · intro u z hu h
    rcases get_set hm hu with ⟨e, e'⟩ | ⟨hne, hu⟩
    · subst e; subst e'
      rcases List.mem_append.1 h with h | h
      · rw [hb.panics u x hm h] at hx; cases hx
      · exact (h5 u h).2
    · rcases List.mem_append.1 h with h | h
      · exact hb.panics u z hu h
      · exact absurd (h5 u h).1 hne

theorem Book.step {blocks : (Nat → Option (Item K A)) → Nat → Nat → Bool} {evs : List (Ev K A)} {s s' : Sys K A} {e : Option (Ev K A)} (hb : Book evs s)
    (hs : QStep blocks s e s') : Book (evs ++ e.toList) s' := by
  cases hs with
  | @other e t' h =>
    have h1 : queryCalls (e.map Ev.other).toList = ([] : List (Query K × (A → Bool))) := by cases e <;> rfl
    have h2 : ∀ m, reports m (e.map Ev.other).toList = [] := by intro m; cases e <;> rfl
    have h3 : ∀ m got, Ev.ret m got ∉ (e.map Ev.other).toList := by intro m got h; cases e <;> simp at h
    have h4 : ∀ m, Ev.panic m ∉ (e.map Ev.other).toList := by intro m h; cases e <;> simp at h
    refine ⟨?_, ?_, ?_, ?_, ?_⟩
    · rw [queryCalls_append, h1, List.append_nil]; exact hb.calls
    · intro m x hm; rw [reports_append, h2, List.append_nil]; exact hb.reps m x hm
    · intro m hm; rw [reports_append, h2, List.append_nil]
      refine ⟨(hb.later m hm).1, fun got h => ?_, fun h => ?_⟩
      · rcases List.mem_append.1 h with h | h
        · exact (hb.later m hm).2.1 got h
        · exact h3 _ _ h
      · rcases List.mem_append.1 h with h | h
        · exact (hb.later m hm).2.2 h
        · exact h4 _ h
    · intro m x got hm h
      rcases List.mem_append.1 h with h | h
      · exact hb.rets m x got hm h
      · exact absurd h (h3 _ _)
    · intro m x hm h
      rcases List.mem_append.1 h with h | h
      · exact hb.panics m x hm h
      · exact absurd h (h4 _)
  | call q more =>
    have hret : ∀ m got, Ev.ret m got ∈ evs ++ (some (Ev.call q more)).toList → Ev.ret m got ∈ evs := by
      intro m got h
      rcases List.mem_append.1 h with h | h
      · exact h
      · simp at h
    have hpan : ∀ m, Ev.panic m ∈ evs ++ (some (Ev.call q more)).toList → Ev.panic m ∈ evs := by
      intro m h
      rcases List.mem_append.1 h with h | h
      · exact h
      · simp at h
    refine ⟨?_, ?_, ?_, ?_, ?_⟩
    · rw [queryCalls_append, ← hb.calls]; simp [queryCalls]
    · intro m x hm
      rw [reports_append]
      rcases get_append hm with ⟨e, e'⟩ | hm
      · subst e; subst e'; rw [(hb.later _ (Nat.le_refl _)).1]; exact start_got _ _
      · rw [← hb.reps m x hm]; simp [reports]
    · intro m hm
      simp only [List.length_append, List.length_cons, List.length_nil] at hm
      rw [reports_append, (hb.later m (by omega)).1]
      exact ⟨rfl, fun got h => (hb.later m (by omega)).2.1 got (hret _ _ h), fun h => (hb.later m (by omega)).2.2 (hpan _ h)⟩
    · intro m x got hm h
      rcases get_append hm with ⟨e, e'⟩ | hm
      · subst e; exact absurd (hret _ _ h) ((hb.later _ (Nat.le_refl _)).2.1 got)
      · exact hb.rets m x got hm (hret _ _ h)
    · intro m x hm h
      rcases get_append hm with ⟨e, e'⟩ | hm
      · subst e; exact absurd (hpan _ h) (hb.later _ (Nat.le_refl _)).2.2
      · exact hb.panics m x hm (hpan _ h)
  | search m x hm hp => exact hb.moves (e := none) hm (by simp [hp, Phase.over]) rfl (fun _ _ => rfl) (by rw [hp]; rfl) (by simp) (by simp)
  | node m x p hm hp hc hn =>
    refine hb.moves (e := none) hm (by simp [hp, Phase.over]) rfl (fun _ _ => rfl) ?_ (by simp) (by simp)
    rw [hp]
    unfold nextNode at hn
    split at hn
    · cases hn
    · split at hn <;> cases hn; rfl
  | found m x hm hp hall => exact hb.moves (e := none) hm (by simp [hp, Phase.over]) rfl (fun _ _ => rfl) (by rw [hp]; rfl) (by simp) (by simp)
  | lookup m x hm hp ho => exact hb.moves (e := none) hm (by simp [hp, Phase.over]) rfl (fun _ _ => rfl) (by rw [hp]; rfl) (by simp) (by simp)
  | eval m x ids hm hp ho => exact hb.moves (e := none) hm (by simp [hp, Phase.over]) rfl (fun _ _ => rfl) (by rw [hp]; rfl) (by simp) (by simp)
  | panic m x hm hp => exact hb.moves hm (by simp [hp, Phase.over]) rfl (fun _ _ => rfl) (by rw [hp]; rfl) (by simp) (by simp)
  | @report m x id rest got it hm hp hd hbz hit =>
    refine hb.moves hm (by simp [hp, Phase.over]) rfl (fun m' h => ?_) ?_ (by simp) (by simp)
    · simp [reports, Ne.symm h]
    · rw [hp]; unfold afterReport; split <;> simp [Phase.got, reports]
  | miss m x hm hp hd => exact hb.moves (e := none) hm (by simp [hp, Phase.over]) rfl (fun _ _ => rfl) (by rw [hp]; simp [Phase.got, reports]) (by simp) (by simp)
  | finish m x hm hp => exact hb.moves (e := none) hm (by simp [hp, Phase.over]) rfl (fun _ _ => rfl) (by rw [hp]; simp [Phase.got, reports]) (by simp) (by simp)
  | @scan m x start got id it hm hp hn hbz hit =>
    refine hb.moves hm (by simp [hp, Phase.over]) rfl (fun m' h => ?_) ?_ (by simp) (by simp)
    · simp [reports, Ne.symm h]
    · rw [hp]; unfold afterScan; split <;> simp [Phase.got, reports]
  | scanned m x hm hp hall => exact hb.moves (e := none) hm (by simp [hp, Phase.over]) rfl (fun _ _ => rfl) (by rw [hp]; simp [Phase.got, reports]) (by simp) (by simp)
  | @ret m x got hm hp hr =>
    have hlt : m < s.js.length := (List.getElem?_eq_some_iff.1 hm).1
    refine ⟨?_, ?_, ?_, ?_, ?_⟩
    · rw [queryCalls_append, ← hb.calls]; simp only [queryCalls, Option.toList, List.append_nil]
      exact map_set_same (x := x) (y := { x with returned := true }) hm rfl
    · intro u z hu
      rw [reports_append]
      rcases get_set hm hu with ⟨e, e'⟩ | ⟨hne, hu⟩
      · subst e; subst e'
        rw [← hb.reps u x hm]; simp [reports]
      · rw [← hb.reps u z hu]; simp [reports]
    · intro u hu
      simp only [List.length_set] at hu
      rw [reports_append, (hb.later u hu).1]
      refine ⟨rfl, fun got' h => ?_, fun h => ?_⟩
      · rcases List.mem_append.1 h with h | h
        · exact (hb.later u hu).2.1 got' h
        · simp at h; omega
      · rcases List.mem_append.1 h with h | h
        · exact (hb.later u hu).2.2 h
        · simp at h
    · intro u z got' hu h
      rcases get_set hm hu with ⟨e, e'⟩ | ⟨hne, hu⟩
      · subst e; subst e'
        rcases List.mem_append.1 h with h | h
        · have := (hb.rets u x got' hm h).2; rw [hr] at this; cases this
        · simp at h; subst h; exact ⟨hp, rfl⟩
      · rcases List.mem_append.1 h with h | h
        · exact hb.rets u z got' hu h
        · simp at h; exact absurd h.1 hne
    · intro u z hu h
      have h' : Ev.panic u ∈ evs := by
        rcases List.mem_append.1 h with h | h
        · exact h
        · simp at h
      rcases get_set hm hu with ⟨e, e'⟩ | ⟨hne, hu⟩
      · subst e
        have := hb.panics u x hm h'
        rw [hp] at this; cases this
      · exact hb.panics u z hu h'

theorem Book.run {blocks : (Nat → Option (Item K A)) → Nat → Nat → Bool} {P : Sys K A → Prop} {s s' : Sys K A} {l k : List (Ev K A)} (hb : Book l s)
    (hr : QRun blocks P s k s') : Book (l ++ k) s' := by
  induction hr with
  | nil _ => rw [List.append_nil]; exact hb
  | step _ h' _ ih => rw [← List.append_assoc]; exact ih.step h'

/-! ### An item that stays -/

/-- Query `m` and the item, during the query. -/
def WatchAt (m id : Nat) (it : Item K A) (q : Query K) (more : A → Bool) (s : Sys K A) : Prop :=
  ∃ x, s.js[m]? = some x ∧ x.query = q ∧ x.more = more ∧ Ok True id it s.tree.index x x.phase

theorem Present.facts {s : Sys K A} (hi : Inv s.tree) {id : Nat} {it : Item K A} (h : Present id it s) : Facts True id it s.tree := ⟨Can.item hi h.1, fun _ => h⟩

theorem WatchAt.step {blocks : (Nat → Option (Item K A)) → Nat → Nat → Bool} {s s' : Sys K A} {e : Option (Ev K A)} {m id : Nat} {it : Item K A} {q : Query K} {more : A → Bool}
    (hi : Inv s.tree) (hi' : Inv s'.tree) (hp : Present id it s) (hp' : Present id it s') (h : WatchAt m id it q more s) (hs : QStep blocks s e s') : WatchAt m id it q more s' := by
  obtain ⟨x, hx, e1, e2, hok⟩ := h
  obtain ⟨x', h1, h2, h3, h4⟩ := Ok.own hi (hp.facts hi) hs hx hok
  refine ⟨x', h1, h2.trans e1, h3.trans e2, (h4.job h2 h3).moves fun _ p hpm => ?_⟩
  have n1 := present_index hi hp.1 hp.2 hpm
  have n2 := present_index hi' hp'.1 hp'.2 hpm
  cases hs with
  | other hs => exact step_index hi hs p n1 n2
  | _ => rfl

theorem WatchAt.run {blocks : (Nat → Option (Item K A)) → Nat → Nat → Bool} {s s' : Sys K A} {k : List (Ev K A)} {m id : Nat} {it : Item K A} {q : Query K} {more : A → Bool}
    (hi : Inv s.tree) (h : WatchAt m id it q more s) (hr : QRun blocks (Present id it) s k s') (hc : ∀ c ∈ others k, c.creates = true) : WatchAt m id it q more s' := by
  induction hr with
  | nil _ => exact h
  | @step s1 s2 evs e hrun hs hP ih =>
    have hc0 := hc
    rw [others_append] at hc
    have hc' := fun c h => hc c (List.mem_append_left _ h)
    have hP1 : Present id it s1 := by cases hrun <;> assumption
    exact (ih hc').step (inv_run hi hrun hc') (inv_run hi (.step hrun hs hP) hc0) hP1 hP hs

theorem call_state {blocks : (Nat → Option (Item K A)) → Nat → Nat → Bool} {s s' : Sys K A} {q : Query K} {more : A → Bool} (hs : QStep blocks s (some (.call q more)) s') :
    s' = { s with js := s.js ++ [⟨q, more, start s.tree q, false⟩] } := by
  generalize he : (some (Ev.call q more)) = e at hs
  cases hs with
  | call q' more' => cases he; rfl
  | @other e t' h => cases e <;> cases he
  | _ => cases he

/-- An item that stays throughout a query is reported if and only if it satisfies it, unless the callback asks for no more. -/
theorem stable [Inhabited K] {blocks : (Nat → Option (Item K A)) → Nat → Nat → Bool} {P : Sys K A → Prop} {l k : List (Ev K A)} {s1 s2 s3 : Sys K A} {q : Query K}
    {more : A → Bool} {id : Nat} {it : Item K A} {got : List (Nat × Item K A)} (h1 : QRun blocks P Sys.init l s1) (h2 : QStep blocks s1 (some (.call q more)) s2)
    (h3 : QRun blocks (Present id it) s2 k s3) (hc : ∀ c ∈ others l ++ others k, c.creates = true) (hq : everywhere Exact Asks q) (ha : IsEmptyQuery q ∨ Asks q)
    (hret : Ev.ret (queryCalls l).length got ∈ k) :
    ((∃ it', (id, it') ∈ got) → queryHolds (idOk id) it.kvs q = true) ∧ (queryHolds (idOk id) it.kvs q = true → (id, it) ∈ got ∨ ∃ y ∈ got, more y.2.val = false) := by
  have hc1 := fun c h => hc c (List.mem_append_left _ h)
  have hc2 := fun c h => hc c (List.mem_append_right _ h)
  have hi1 : Inv s1.tree := inv_run AssocConc.Inv.init h1 hc1
  have hb1 : Book l s1 := Book.run Book.init h1
  have hlen : (queryCalls l).length = s1.js.length := by rw [← hb1.calls, List.length_map]
  have e2 := call_state h2
  have hi2 : Inv s2.tree := by rw [e2]; exact hi1
  have hb3 : Book (l ++ [.call q more] ++ k) s3 := (hb1.step h2).run h3
  have hp2 : ∀ {k : List (Ev K A)} {s : Sys K A}, QRun blocks (Present id it) s2 k s → Present id it s2 := by
    intro k s hr
    induction hr with
    | nil h => exact h
    | step _ _ _ ih => exact ih
  have hpr := hp2 h3
  have hq' : everywhere (SelFine True) Asks q := by
    exact everywhere_mono (fun s h => ⟨h, Or.inl trivial⟩) q hq
  have hw2 : WatchAt (queryCalls l).length id it q more s2 := by
    refine ⟨⟨q, more, start s1.tree q, false⟩, by rw [e2, hlen]; simp, rfl, rfl, ?_⟩
    have := hpr.facts hi2
    rw [e2] at this ⊢
    exact Ok.begin hq' ha this
  obtain ⟨x, hx, e1, e3, hw⟩ := hw2.run hi2 h3 hc2
  have := (hb3.rets _ x got hx (List.mem_append_right _ hret)).1
  rw [this] at hw
  rw [← e3, ← e1]
  exact ⟨fun ⟨it', h⟩ => hw.1 (List.mem_map.2 ⟨_, h, rfl⟩), hw.2 trivial⟩

end Willow.QueryConc
