import Verif.Proofs.AssocConc
/-! The associated tree under concurrency: the steps, and that the invariants hold at every moment. -/
namespace Willow.AssocConc
open Willow

variable {V A : Type}

/-- The steps of a call, one by one. -/
inductive Move [DecidableEq V] (s : St V A) (t : Nat) (th : Thread V A) : St V A → Prop where
  | queryEnd {acc} (h : th.phase = .query [] acc) : Move s t th (s.to t th (.lookup (acc.getD [])))
  | queryMiss {p rest acc} (h : th.phase = .query (p :: rest) acc) (hm : inter acc (s.content p th.call.kvs.length) = []) : Move s t th (s.to t th (afterQuery th.call))
  | queryHit {p rest acc} (h : th.phase = .query (p :: rest) acc) : Move s t th (s.to t th (.query rest (some (inter acc (s.content p th.call.kvs.length)))))
  | lookupEnd (h : th.phase = .lookup []) : Move s t th (s.to t th (afterQuery th.call))
  | lookupSkip {id rest} (h : th.phase = .lookup (id :: rest)) (hs : id ∈ s.destroying ∨ s.item id = none) : Move s t th (s.to t th (.lookup rest))
  | lookupFound {id rest it} (h : th.phase = .lookup (id :: rest)) (hd : id ∉ s.destroying) (hit : s.item id = some it) : Move s t th (s.to t th (.done (.found id it.val) []))
  | touchEnd {nodes} (h : th.phase = .touch [] nodes) : Move s t th (s.to t th (.lock nodes [] none))
  | touchNew {p rest nodes} (h : th.phase = .touch (p :: rest) nodes) (hx : s.index p = none) :
      Move s t th ({ s with node := fun j => if j = s.next then ⟨p, [], 1, none⟩ else s.node j, next := s.next + 1, index := fun q => if q = p then some s.next else s.index q }.to t th (.touch rest (nodes ++ [s.next])))
  | touchOld {p rest nodes i} (h : th.phase = .touch (p :: rest) nodes) (hx : s.index p = some i) :
      Move s t th ((s.setNode i fun d => { d with creating := d.creating + 1 }).to t th (.touch rest (nodes ++ [i])))
  | lock {i rest held got} (h : th.phase = .lock (i :: rest) held got) (ho : (s.node i).owner = none) :
      Move s t th ((s.setNode i fun d => { d with owner := some t, ids := extend th.call.kvs.length d.ids }).to t th (.lock rest (held ++ [i]) (some (inter got ((s.node i).at th.call.kvs.length)))))
  | lockedExists {held id kvs a} (h : th.phase = .lock [] held (some [id])) (hc : th.call = .create kvs a) : Move s t th (s.to t th (.unlock held .exists))
  | lockedClosing {held id kvs a} (h : th.phase = .lock [] held (some [id])) (hc : th.call = .createOrFind kvs a) (hd : id ∈ s.destroying) : Move s t th (s.to t th (.unlock held .destroying))
  | lockedFound {held id it kvs a} (h : th.phase = .lock [] held (some [id])) (hc : th.call = .createOrFind kvs a) (hd : id ∉ s.destroying) (hit : s.item id = some it) :
      Move s t th (s.to t th (.unlock held (.found id it.val)))
  | lockedNeither {held id} (h : th.phase = .lock [] held (some [id])) (hit : s.item id = none) : Move s t th (s.to t th (.unlock held (.neither id)))
  | startMake {held got pick} (h : th.phase = .lock [] held got) (hg : ∀ id, got ≠ some [id]) (hf : pick ∉ s.used) :
      Move s t th (({ s with used := pick :: s.used }.setNodes held fun d => { d with ids := addId th.call.kvs.length pick d.ids }).to t th (.make held pick))
  | make {held id a} (h : th.phase = .make held id) (hc : th.call = .create th.call.kvs a ∨ th.call = .createOrFind th.call.kvs a) :
      Move s t th ({ s with item := fun j => if j = id then some ⟨th.call.kvs, a⟩ else s.item j }.to t th (.unlock held (.created id)))
  | unlockEnd {r} (h : th.phase = .unlock [] r) (hr : r ≠ .failed) : Move s t th (s.to t th (.done r []))
  | unlock {i rest r} (h : th.phase = .unlock (i :: rest) r) : Move s t th (nextUnlock s t th i rest r)
  | dfindShort {nodes} (h : th.phase = .dfind [] nodes) (hl : nodes.length ≠ th.call.kvs.length) : Move s t th (s.to t th (.clean th.call.kvs .nothing))
  | dfindEnd {nodes} (h : th.phase = .dfind [] nodes) (hl : nodes.length = th.call.kvs.length) : Move s t th (s.to t th (.dlock nodes [] none))
  | dfindNone {p rest nodes} (h : th.phase = .dfind (p :: rest) nodes) (hx : s.index p = none) : Move s t th (s.to t th (.dfind rest nodes))
  | dfind {p rest nodes i} (h : th.phase = .dfind (p :: rest) nodes) (hx : s.index p = some i) : Move s t th (s.to t th (.dfind rest (nodes ++ [i])))
  | dlockShort {i rest held got} (h : th.phase = .dlock (i :: rest) held got) (ho : (s.node i).owner = none) (hl : (s.node i).ids.length < th.call.kvs.length) :
      Move s t th ((s.setNode i fun d => { d with owner := some t }).to t th (.dunlock (held ++ [i]) true .nothing))
  | dlock {i rest held got} (h : th.phase = .dlock (i :: rest) held got) (ho : (s.node i).owner = none) :
      Move s t th ((s.setNode i fun d => { d with owner := some t }).to t th (.dlock rest (held ++ [i]) (some (inter got ((s.node i).at th.call.kvs.length)))))
  | dclosing {held id} (h : th.phase = .dlock [] held (some [id])) (hd : id ∈ s.destroying) : Move s t th (s.to t th (.done .destroying held))
  | dremove {held id it} (h : th.phase = .dlock [] held (some [id])) (hd : id ∉ s.destroying) (hit : s.item id = some it) (hcan : th.call.can it.val = true) :
      Move s t th (({ s with item := fun j => if j = id then none else s.item j }.setNodes held fun d => { d with ids := dropId th.call.kvs.length id d.ids }).to t th (.dunlock held false (.removed id)))
  | drefuse {held id it} (h : th.phase = .dlock [] held (some [id])) (hd : id ∉ s.destroying) (hit : s.item id = some it) (hcan : th.call.can it.val = false) :
      Move s t th (s.to t th (.dunlock held false .refused))
  | dnone {held id} (h : th.phase = .dlock [] held (some [id])) (hit : s.item id = none) :
      Move s t th ((s.setNodes held fun d => { d with ids := dropId th.call.kvs.length id d.ids }).to t th (.dunlock held false .nothing))
  | dother {held got} (h : th.phase = .dlock [] held got) (hg : ∀ id, got ≠ some [id]) : Move s t th (s.to t th (.dunlock held false .nothing))
  | dunlockStop {r} (h : th.phase = .dunlock [] true r) : Move s t th (s.to t th (.done r []))
  | dunlockEnd {r} (h : th.phase = .dunlock [] false r) : Move s t th (s.to t th (.clean th.call.kvs r))
  | dunlock {i rest stop r} (h : th.phase = .dunlock (i :: rest) stop r) : Move s t th (nextDunlock s t th i rest stop r)
  | cleanEnd {r} (h : th.phase = .clean [] r) : Move s t th (s.to t th (.done r []))
  | cleanSkip {p rest r} (h : th.phase = .clean (p :: rest) r) : Move s t th (s.to t th (.clean rest r))
  | clean {p rest r i} (h : th.phase = .clean (p :: rest) r) (hx : s.index p = some i) (he : (s.node i).ids = []) (hc : (s.node i).creating = 0) :
      Move s t th ({ s with index := fun q => if q = p then none else s.index q }.to t th (.clean rest r))
  | markTaken {id can} (h : th.phase = .mark) (hc : th.call = .destroy id can) (hd : id ∈ s.destroying) : Move s t th (s.to t th (.done .destroying []))
  | markNew {id can} (h : th.phase = .mark) (hc : th.call = .destroy id can) (hd : id ∉ s.destroying) : Move s t th ({ s with destroying := s.destroying ++ [id] }.to t th .seize)
  | seizeNone {id can} (h : th.phase = .seize) (hc : th.call = .destroy id can) (hit : s.item id = none) :
      Move s t th ({ s with destroying := s.destroying.erase id }.to t th (.done .nothing []))
  | seizeKeep {id can it} (h : th.phase = .seize) (hc : th.call = .destroy id can) (hit : s.item id = some it) (hcan : can it.val = false) :
      Move s t th ({ s with destroying := s.destroying.erase id }.to t th (.done .refused []))
  | seizeGo {id can it} (h : th.phase = .seize) (hc : th.call = .destroy id can) (hit : s.item id = some it) (hcan : can it.val = true) : Move s t th (s.to t th (.wipe it.kvs))
  | wiped {id can} (h : th.phase = .wipe []) (hc : th.call = .destroy id can) : Move s t th (nextWiped s t th id)
  | wipe {id can it todo p pick i index'} (h : th.phase = .wipe todo) (hc : th.call = .destroy id can) (hit : s.item id = some it) (hp : todo[pick]? = some p)
      (hx : s.index p = some i) (ho : (s.node i).owner = none)
      (hindex : (index' = s.index) ∨ (index' = (fun q => if q = p then none else s.index q) ∧ dropId it.kvs.length id (s.node i).ids = [] ∧ (s.node i).creating = 0)) :
      Move s t th ({ (s.setNode i fun d => { d with ids := dropId it.kvs.length id d.ids }) with index := index' }.to t th (.wipe (todo.eraseIdx pick)))

theorem not_owned {α : Type} {o : Option α} (h : ¬ (o ≠ none)) : o = none := Classical.not_not.1 h

theorem next_move [DecidableEq V] {blocks : (Nat → Option (Item V A)) → Nat → Nat → Bool} {s s' : St V A} (hi : Inv s) {t pick : Nat} {th : Thread V A}
    (ht : s.threads[t]? = some th) (hn : next blocks s t pick th = some s') : Move s t th s' := by
  have hcr := hi.creates t th ht
  have hfit := hcr.2.2
  unfold next at hn
  split at hn
  next acc h => cases hn; exact .queryEnd h
  next p rest acc h =>
    unfold nextQuery at hn
    split at hn
    next hx =>
      cases hn
      refine .queryMiss h ?_
      rw [content_none hx, inter_nil]
    next i hx =>
      split at hn
      · cases hn
      · split at hn
        next hm => cases hn; exact .queryMiss h (by rw [content_some hx]; exact hm)
        next hm => cases hn; rw [← content_some hx]; exact .queryHit h
  next h => cases hn; exact .lookupEnd h
  next id rest h =>
    unfold nextLookup at hn
    split at hn
    next hd => cases hn; exact .lookupSkip h (Or.inl hd)
    next hd =>
      split at hn
      · cases hn
      · split at hn
        next it hit => cases hn; exact .lookupFound h hd hit
        next hit => cases hn; exact .lookupSkip h (Or.inr hit)
  next nodes h => cases hn; exact .touchEnd h
  next p rest nodes h =>
    unfold nextTouch at hn
    split at hn
    next hx => cases hn; exact .touchNew h hx
    next i hx =>
      split at hn
      · cases hn
      · cases hn; exact .touchOld h hx
  next held got h =>
    unfold nextLocked at hn
    split at hn
    next id =>
      split at hn
      next kvs a hc => cases hn; exact .lockedExists h hc
      next hc =>
        have hc' : ∃ kvs a, th.call = .createOrFind kvs a := by
          rw [h] at hfit
          cases hcc : th.call with
          | create kvs a => exact absurd hcc (hc kvs a)
          | createOrFind kvs a => exact ⟨kvs, a, rfl⟩
          | _ => rw [hcc] at hfit; exact hfit.elim
        obtain ⟨kvs, a, hc'⟩ := hc'
        split at hn
        next hd => cases hn; exact .lockedClosing h hc' hd
        next hd =>
          split at hn
          · cases hn
          · split at hn
            next it hit => cases hn; exact .lockedFound h hc' hd hit
            next hit => cases hn; exact .lockedNeither h hit
    next hg =>
      split at hn
      next hf =>
        cases hn
        refine .startMake h (fun id e => hg id e) ?_
        unfold St.fresh at hf
        simp only [Bool.and_eq_true, decide_eq_true_eq] at hf
        exact hf.1
      · cases hn
  next i rest held got h =>
    unfold nextLock at hn
    split at hn
    · cases hn
    next ho =>
      simp only at hn
      rw [locked_got] at hn
      · cases hn; exact .lock h (not_owned ho)
      · exact call_len ⟨hcr.1, hcr.2.1⟩ (by intro id can e; rw [e, h] at hfit; exact hfit)
  next held id h =>
    unfold nextMake at hn
    split at hn
    next kvs a hc =>
      split at hn
      · cases hn
      · cases hn
        have e : kvs = th.call.kvs := by rw [hc]; rfl
        rw [e]; exact .make h (Or.inl (by rw [← e]; exact hc))
    next kvs a hc =>
      split at hn
      · cases hn
      · cases hn
        have e : kvs = th.call.kvs := by rw [hc]; rfl
        rw [e]; exact .make h (Or.inr (by rw [← e]; exact hc))
    next h1 h2 =>
      exfalso
      rw [h] at hfit
      cases hcc : th.call with
      | create kvs a => exact h1 kvs a hcc
      | createOrFind kvs a => exact h2 kvs a hcc
      | _ => rw [hcc] at hfit; exact hfit.elim
  next r h =>
    cases hn
    have hr : r ≠ .failed := by
      rw [h] at hfit
      cases hcc : th.call <;> rw [hcc] at hfit <;> first | exact hfit | exact hfit.elim
    have e : afterUnlock th.call r = .done r [] := by
      cases r <;> first | rfl | exact absurd rfl hr
    rw [e]; exact .unlockEnd h hr
  next i rest r h => cases hn; exact .unlock h
  next nodes h =>
    cases hn
    unfold afterDfind
    by_cases hl : nodes.length = th.call.kvs.length
    · rw [if_pos hl]; exact .dfindEnd h hl
    · rw [if_neg hl]; exact .dfindShort h hl
  next p rest nodes h =>
    cases hn
    unfold nextDfind
    cases hx : s.index p with
    | none => exact .dfindNone h hx
    | some i => exact .dfind h hx
  next held got h =>
    unfold nextDlocked at hn
    split at hn
    next id =>
      split at hn
      next hd => cases hn; exact .dclosing h hd
      next hd =>
        split at hn
        · cases hn
        · split at hn
          next it hit =>
            split at hn
            next hcan => cases hn; exact .dremove h hd hit hcan
            next hcan => cases hn; exact .drefuse h hd hit (by simpa using hcan)
          next hit => cases hn; exact .dnone h hit
    next hg => cases hn; exact .dother h (fun id e => hg id e)
  next i rest held got h =>
    unfold nextDlock at hn
    split at hn
    · cases hn
    next ho =>
      split at hn
      next hl => cases hn; exact .dlockShort h (not_owned ho) hl
      next hl => cases hn; exact .dlock h (not_owned ho)
  next stop r h =>
    cases hn
    rw [h] at hfit
    have hfin : ∀ r : Res A, finish th.call r = .done r [] := by
      intro r
      cases hcc : th.call <;> rw [hcc] at hfit <;> first | exact hfit.elim | rfl
    cases stop with
    | true => unfold afterDunlock; rw [if_pos rfl, hfin]; exact .dunlockStop h
    | false => exact .dunlockEnd h
  next i rest stop r h => cases hn; exact .dunlock h
  next r h =>
    cases hn
    rw [h] at hfit
    have hfin : finish th.call r = .done r [] := by
      cases hcc : th.call <;> rw [hcc] at hfit <;> first | exact hfit.elim | rfl
    rw [hfin]; exact .cleanEnd h
  next p rest r h =>
    unfold nextClean at hn
    split at hn
    next hx => cases hn; exact .cleanSkip h
    next i hx =>
      split at hn
      · cases hn
      · split at hn
        next he => cases hn; exact .clean h hx he.1 he.2
        next => cases hn; exact .cleanSkip h
  next h =>
    split at hn
    next id can hc =>
      cases hn
      unfold nextMark
      by_cases hd : id ∈ s.destroying
      · rw [if_pos hd]; exact .markTaken h hc hd
      · rw [if_neg hd]; exact .markNew h hc hd
    · cases hn
  next h =>
    split at hn
    next id can hc =>
      unfold nextSeize at hn
      split at hn
      · cases hn
      · split at hn
        next hit => cases hn; exact .seizeNone h hc hit
        next it hit =>
          have e : th.call.can it.val = can it.val := by rw [hc]; rfl
          split at hn
          next hcan => cases hn; exact .seizeGo h hc hit (by rw [← e]; exact hcan)
          next hcan => cases hn; exact .seizeKeep h hc hit (by rw [← e]; simpa using hcan)
    · cases hn
  next h =>
    split at hn
    next id can hc => cases hn; exact .wiped h hc
    · cases hn
  next p rest h =>
    split at hn
    next id can q hc hq =>
      split at hn
      next it hit =>
        unfold nextWipe at hn
        split at hn
        next hx =>
          exfalso
          -- the pair is still in the index
          have hw : th.Wiping id (p :: rest) := ⟨⟨can, hc⟩, h⟩
          obtain ⟨it', h1, hsub⟩ := hi.cont.wip t th id _ ht hw
          rw [hit] at h1; cases h1
          have hqm : q ∈ p :: rest := List.mem_of_getElem? hq
          have hqk := hsub.subset hqm
          have : id ∈ s.content q it.kvs.length := by
            refine (hi.cont.mem q _ id (List.length_pos_of_mem hqk)).2 (Or.inl ⟨it, hit, hqk, rfl, ?_⟩)
            intro u x todo hu hwx
            have hut := hi.cont.one t u th x id ht hu ⟨hw.1, Or.inr ⟨_, hw.2⟩⟩ ⟨hwx.1, Or.inr ⟨_, hwx.2⟩⟩
            subst hut; rw [ht] at hu; cases hu
            have := hwx.2; rw [h] at this; cases this; exact hqm
          rw [content_none hx] at this; cases this
        next i hx =>
          split at hn
          · cases hn
          next ho =>
            simp only at hn
            split at hn
            next he => cases hn; exact .wipe h hc hit hq hx (not_owned ho) (Or.inr ⟨rfl, he.1, he.2⟩)
            next he => cases hn; exact .wipe h hc hit hq hx (not_owned ho) (Or.inl rfl)
      · cases hn
    · cases hn
  · cases hn

/-! ### The invariants hold at every moment -/

theorem Inv.claim {s : St V A} (hi : Inv s) {p : GoString × V} {n id : Nat} (hn : 1 ≤ n) (h : id ∈ s.content p n) : s.Claim id p n := by
  rcases (hi.cont.mem p n id hn).1 h with ⟨it, h1, h2, h3, _⟩ | ⟨u, x, hu, hm, h2, h3⟩
  · refine ⟨(hi.cont.itm id it h1).1, ?_, ?_⟩
    · intro it' h; rw [h1] at h; cases h; exact ⟨h2, h3⟩
    · intro u x hu hm
      have := (hi.cont.mak u x id hu hm).2.1
      rw [h1] at this; cases this
  · obtain ⟨k1, k2, k3⟩ := hi.cont.mak u x id hu hm
    refine ⟨k1, ?_, ?_⟩
    · intro it' h; rw [k2] at h; cases h
    · intro v y hv hmv
      have := k3 v y hv hmv
      subst this
      rw [hu] at hv; cases hv; exact ⟨h2, h3⟩

theorem mem_eraseIdx {α : Type} : ∀ {l : List α} {k : Nat} {p : α}, l.Nodup → l[k]? = some p → ∀ q, q ∈ l.eraseIdx k ↔ q ∈ l ∧ q ≠ p
  | [], k, p, _, h, q => by simp at h
  | x :: l, 0, p, hn, h, q => by
    simp only [List.getElem?_cons_zero, Option.some.injEq] at h
    subst h
    have := (List.nodup_cons.1 hn).1
    simp only [List.eraseIdx_cons_zero, List.mem_cons]
    constructor
    · intro hq; exact ⟨Or.inr hq, fun e => this (e ▸ hq)⟩
    · rintro ⟨e | hq, hne⟩
      · exact absurd e hne
      · exact hq
  | x :: l, k + 1, p, hn, h, q => by
    have hn' := List.nodup_cons.1 hn
    have h' : l[k]? = some p := by simpa using h
    simp only [List.eraseIdx_cons_succ, List.mem_cons, mem_eraseIdx hn'.2 h' q]
    have hx : x ≠ p := fun e => hn'.1 (e ▸ List.mem_of_getElem? h')
    constructor
    · rintro (e | ⟨h1, h2⟩)
      · exact ⟨Or.inl e, e ▸ hx⟩
      · exact ⟨Or.inr h1, h2⟩
    · rintro ⟨e | h1, h2⟩
      · exact Or.inl e
      · exact Or.inr ⟨h1, h2⟩

theorem Inv.lockedId {s : St V A} (hi : Inv s) {t : Nat} {th : Thread V A} {held : List Nat} {id : Nat} (ht : s.threads[t]? = some th)
    (h : th.phase = .lock [] held (some [id]) ∨ th.phase = .dlock [] held (some [id])) :
    (∀ i ∈ held, id ∈ (s.node i).at th.call.kvs.length) ∧
    ∃ it, s.item id = some it ∧ it.kvs = th.call.kvs ∧ ∀ (u : Nat) (x : Thread V A) (todo : KVs V), s.threads[u]? = some x → x.Wiping id todo → todo = th.call.kvs := by
  have hcr := hi.creates t th ht
  have hp := hi.phs t th ht
  have hfit := hcr.2.2
  have hq : th.phase.loud = false := by rcases h with h | h <;> (rw [h]; rfl)
  have hmem : ∀ i ∈ held, i ∈ th.phase.holds := by
    intro i hi'; rcases h with h | h <;> (rw [h]; exact hi')
  have hp' : held.map (fun i => (s.node i).pair) = th.call.kvs ∧ Got s th.call.kvs.length held (some [id]) := by
    rcases h with h | h
    · rw [h] at hp; obtain ⟨h1, h2, _⟩ := hp; rw [List.append_nil] at h1; exact ⟨h1, h2⟩
    · rw [h] at hp; obtain ⟨h1, h2⟩ := hp; rw [List.append_nil] at h1; exact ⟨h1, h2⟩
  have hall : ∀ i ∈ held, id ∈ (s.node i).at th.call.kvs.length := (hp'.2.2.2 id).1 (by simp)
  have hok : th.call.kvs ≠ [] ∧ Sorted th.call.kvs := by
    have hok := hcr.2.1
    have hnd : ∀ i can, th.call ≠ .destroy i can := by
      intro i can e; rcases h with h | h <;> (rw [e, h] at hfit; exact hfit)
    cases hcc : th.call with
    | destroy i can => exact absurd hcc (hnd i can)
    | _ => rw [hcc] at hok; exact hok
  exact ⟨hall, hi.common ht hq hok.2 hok.1 hp'.1 hmem hall⟩

theorem Fits.move {c : Call V A} {p p' : Phase V A} (h : Fits c p) (hm : match p, p' with
    | .query _ _, .query _ _ => True | .query _ _, .lookup _ => True | .lookup _, .lookup _ => True | .lookup _, .done _ _ => True
    | .touch _ _, .lock _ _ _ => True | .lock _ _ _, .unlock _ r => r ≠ .failed | .unlock _ _, .done _ _ => True
    | .dfind _ _, .clean _ _ => True | .dfind _ _, .dlock _ _ _ => True | .dfind _ _, .dfind _ _ => True
    | .dlock _ _ _, .done _ _ => True | .dlock _ _ _, .dunlock _ _ _ => True | .dunlock _ _ _, .done _ _ => True | .dunlock _ _ _, .clean _ _ => True
    | .clean _ _, .done _ _ => True | .clean _ _, .clean _ _ => True | .mark, .done _ _ => True
    | _, _ => False) : Fits c p' := by
  cases c <;> cases p <;> first | exact h.elim | (cases p' <;> first | exact hm.elim | exact hm | trivial)

theorem Fits.afterQuery {c : Call V A} {todo : KVs V} {acc : Option (List Nat)} {ids : List Nat} (hc : c.creates = true) (h : Fits c (.query todo acc) ∨ Fits c (.lookup ids)) :
    Fits c (AssocConc.afterQuery c) ∧ (AssocConc.afterQuery c).loud = false ∧ (AssocConc.afterQuery c).holds = [] ∧ (AssocConc.afterQuery c).touched = [] ∧
      (AssocConc.afterQuery c).known = [] ∧ ∀ s : St V A, PhaseOk s c (AssocConc.afterQuery c) := by
  cases c <;> first | (rcases h with h | h <;> exact h.elim) | (cases hc; done) | exact ⟨trivial, rfl, rfl, rfl, rfl, fun _ => trivial⟩ | exact ⟨trivial, rfl, rfl, rfl, rfl, fun _ => rfl⟩

theorem Inv.move [DecidableEq V] {s s' : St V A} (hi : Inv s) {t : Nat} {th : Thread V A} (ht : s.threads[t]? = some th) (hm : Move s t th s') : Inv s' := by
  have hcr := hi.creates t th ht
  have hfit := hcr.2.2
  have hp := hi.phs t th ht
  have hk := hi.locks.knw t th ht
  cases hm with
  | @queryEnd acc h =>
    rw [h] at hfit hp
    obtain ⟨b, h1, h2, h3⟩ := hp
    refine hi.phase ht (by rw [h]; rfl) rfl (hfit.move trivial) (by rw [h]; intro i; rfl) (by rw [h]; intro i; rfl) (fun i hx => by cases hx) ?_
    rw [List.append_nil] at h1
    intro id hid p hp
    cases acc with
    | none => simp at hid
    | some l => rw [h1] at hp; exact h3 l rfl id hid p hp
  | queryMiss h hm =>
    rw [h] at hfit
    obtain ⟨a1, a2, a3, a4, a5, a6⟩ := Fits.afterQuery (ids := []) hcr.1 (Or.inl hfit)
    exact hi.phase ht (by rw [h]; rfl) a2 a1 (by rw [h, a3]; intro i; rfl) (by rw [h, a4]; intro i; rfl) (by rw [a5]; intro i hx; cases hx) (a6 s)
  | @queryHit p rest acc h =>
    have hlen : 1 ≤ th.call.kvs.length := call_len ⟨hcr.1, hcr.2.1⟩ (by intro id can e; rw [e, h] at hfit; exact hfit)
    rw [h] at hfit hp
    obtain ⟨b, h1, h2, h3⟩ := hp
    refine hi.phase ht (by rw [h]; rfl) rfl (hfit.move trivial) (by rw [h]; intro i; rfl) (by rw [h]; intro i; rfl) (fun i hx => by cases hx) ?_
    refine ⟨b ++ [p], by rw [h1]; simp, fun e => (by cases e), ?_⟩
    intro l hl id hid q hq
    cases hl
    have hboth : id ∈ s.content p th.call.kvs.length ∧ ∀ l, acc = some l → id ∈ l := by
      cases acc with
      | none => exact ⟨hid, fun l e => (by cases e)⟩
      | some g =>
        simp only [inter, List.mem_filter, List.contains_iff_mem] at hid
        exact ⟨hid.2, fun l e => by cases e; exact hid.1⟩
    rcases List.mem_append.1 hq with hq | hq
    · cases acc with
      | none => rw [h2 rfl] at hq; cases hq
      | some g => exact h3 g rfl id (hboth.2 g rfl) q hq
    · simp at hq; subst hq; exact hi.claim hlen hboth.1
  | lookupEnd h =>
    rw [h] at hfit
    obtain ⟨a1, a2, a3, a4, a5, a6⟩ := Fits.afterQuery (todo := []) (acc := none) hcr.1 (Or.inr hfit)
    exact hi.phase ht (by rw [h]; rfl) a2 a1 (by rw [h, a3]; intro i; rfl) (by rw [h, a4]; intro i; rfl) (by rw [a5]; intro i hx; cases hx) (a6 s)
  | lookupSkip h hs =>
    rw [h] at hfit hp
    exact hi.phase ht (by rw [h]; rfl) rfl (hfit.move trivial) (by rw [h]; intro i; rfl) (by rw [h]; intro i; rfl) (fun i hx => by cases hx)
      (fun id hid => hp id (List.mem_cons_of_mem _ hid))
  | lookupFound h hd hit =>
    rw [h] at hfit
    exact hi.phase ht (by rw [h]; rfl) rfl (hfit.move trivial) (by rw [h]; intro i; rfl) (by rw [h]; intro i; rfl) (fun i hx => by cases hx) trivial
  | touchEnd h =>
    rw [h] at hfit hp hk
    refine hi.phase ht (by rw [h]; rfl) rfl (hfit.move trivial) (by rw [h]; intro i; rfl) (by rw [h]; intro i; rfl) hk ?_
    simp only [PhaseOk, List.append_nil] at hp
    exact ⟨hp.symm, rfl, fun i hx => by cases hx⟩
  | touchNew h hx => exact hi.touchNew ht h hx
  | touchOld h hx => exact hi.touchOld ht h hx
  | lock h ho => exact hi.lock ht h ho
  | lockedExists h hc =>
    rw [h] at hfit hp hk
    rw [show ∀ l : List Nat, (Phase.lock [] l (some [_]) : Phase V A).known = l ++ [] from fun _ => rfl] at hk
    refine hi.phase ht (by rw [h]; rfl) rfl (hfit.move (by simp)) (by rw [h]; intro i; rfl) (by rw [h]; intro i; simp [Phase.touched]) (fun i hx => hk i (List.mem_append_left _ hx)) ?_
    exact pair_nodup ⟨hcr.1, hcr.2.1⟩ (by simpa using hp.1)
  | lockedClosing h hc hd =>
    rw [h] at hfit hp hk
    rw [show ∀ l : List Nat, (Phase.lock [] l (some [_]) : Phase V A).known = l ++ [] from fun _ => rfl] at hk
    refine hi.phase ht (by rw [h]; rfl) rfl (hfit.move (by simp)) (by rw [h]; intro i; rfl) (by rw [h]; intro i; simp [Phase.touched]) (fun i hx => hk i (List.mem_append_left _ hx)) ?_
    exact pair_nodup ⟨hcr.1, hcr.2.1⟩ (by simpa using hp.1)
  | lockedFound h hc hd hit =>
    rw [h] at hfit hp hk
    rw [show ∀ l : List Nat, (Phase.lock [] l (some [_]) : Phase V A).known = l ++ [] from fun _ => rfl] at hk
    refine hi.phase ht (by rw [h]; rfl) rfl (hfit.move (by simp)) (by rw [h]; intro i; rfl) (by rw [h]; intro i; simp [Phase.touched]) (fun i hx => hk i (List.mem_append_left _ hx)) ?_
    exact pair_nodup ⟨hcr.1, hcr.2.1⟩ (by simpa using hp.1)
  | lockedNeither h hit =>
    obtain ⟨_, it, h1, _⟩ := hi.lockedId ht (Or.inl h)
    rw [hit] at h1; cases h1
  | startMake h hg hf => exact hi.startMake ht h hf
  | make h hc => exact hi.make ht h
  | unlockEnd h hr =>
    rw [h] at hfit
    exact hi.phase ht (by rw [h]; rfl) rfl (hfit.move trivial) (by rw [h]; intro i; rfl) (by rw [h]; intro i; rfl) (fun i hx => by cases hx) trivial
  | unlock h => exact hi.unlock ht h
  | dfindShort h hl =>
    rw [h] at hfit
    exact hi.phase ht (by rw [h]; rfl) rfl (hfit.move trivial) (by rw [h]; intro i; rfl) (by rw [h]; intro i; rfl) (fun i hx => by cases hx) trivial
  | dfindEnd h hl =>
    rw [h] at hfit hp hk
    refine hi.phase ht (by rw [h]; rfl) rfl (hfit.move trivial) (by rw [h]; intro i; rfl) (by rw [h]; intro i; rfl) hk ?_
    obtain ⟨b, h1, h2⟩ := hp
    rw [List.append_nil] at h1
    refine ⟨?_, rfl⟩
    rw [h1]
    refine h2.eq_of_length_le ?_
    rw [List.length_map, hl, h1]
    exact Nat.le_refl _
  | dfindNone h hx =>
    rw [h] at hfit hp hk
    obtain ⟨b, h1, h2⟩ := hp
    refine hi.phase ht (by rw [h]; rfl) rfl (hfit.move trivial) (by rw [h]; intro i; rfl) (by rw [h]; intro i; rfl) hk ?_
    exact ⟨b ++ [_], by rw [h1, List.append_assoc]; rfl, h2.trans (List.sublist_append_left _ _)⟩
  | @dfind p rest nodes i h hx =>
    rw [h] at hfit hp hk
    obtain ⟨b, h1, h2⟩ := hp
    have hidx := hi.locks.idx p i hx
    refine hi.phase ht (by rw [h]; rfl) rfl (hfit.move trivial) (by rw [h]; intro i; rfl) (by rw [h]; intro i; rfl) ?_ ?_
    · intro j hj
      rcases List.mem_append.1 hj with hj | hj
      · exact hk j hj
      · simp at hj; subst hj; exact hidx.1
    · refine ⟨b ++ [p], by rw [h1, List.append_assoc]; rfl, ?_⟩
      rw [List.map_append]
      refine h2.append ?_
      simp [hidx.2]
  | dlockShort h ho hl => exact hi.dlock ht h ho (Or.inl rfl)
  | dlock h ho => exact hi.dlock ht h ho (Or.inr rfl)
  | dclosing h hd =>
    rw [h] at hfit hk
    rw [show ∀ l : List Nat, (Phase.dlock [] l (some [_]) : Phase V A).known = l ++ [] from fun _ => rfl] at hk
    exact hi.phase ht (by rw [h]; rfl) rfl (hfit.move trivial) (by rw [h]; intro i; rfl) (by rw [h]; intro i; rfl) (fun i hx => hk i (List.mem_append_left _ hx)) trivial
  | dremove h hd hit hcan =>
    obtain ⟨hall, it', h1, h2, _⟩ := hi.lockedId ht (Or.inr h)
    rw [hit] at h1; cases h1
    exact hi.remove ht h hit h2 hd hall
  | drefuse h hd hit hcan =>
    rw [h] at hfit hp hk
    rw [show ∀ l : List Nat, (Phase.dlock [] l (some [_]) : Phase V A).known = l ++ [] from fun _ => rfl] at hk
    refine hi.phase ht (by rw [h]; rfl) rfl (hfit.move trivial) (by rw [h]; intro i; rfl) (by rw [h]; intro i; rfl) (fun i hx => hk i (List.mem_append_left _ hx)) ?_
    exact pair_nodup ⟨hcr.1, hcr.2.1⟩ (by simpa using hp.1)
  | dnone h hit =>
    obtain ⟨_, it, h1, _⟩ := hi.lockedId ht (Or.inr h)
    rw [hit] at h1; cases h1
  | @dother held got h hg =>
    rw [h] at hfit hp hk
    rw [show (Phase.dlock [] held got : Phase V A).known = held ++ [] from rfl] at hk
    refine hi.phase ht (by rw [h]; rfl) rfl (hfit.move trivial) (by rw [h]; intro i; rfl) (by rw [h]; intro i; rfl) (fun i hx => hk i (List.mem_append_left _ hx)) ?_
    exact pair_nodup ⟨hcr.1, hcr.2.1⟩ (by simpa using hp.1)
  | dunlockStop h =>
    rw [h] at hfit
    exact hi.phase ht (by rw [h]; rfl) rfl (hfit.move trivial) (by rw [h]; intro i; rfl) (by rw [h]; intro i; rfl) (fun i hx => by cases hx) trivial
  | dunlockEnd h =>
    rw [h] at hfit
    exact hi.phase ht (by rw [h]; rfl) rfl (hfit.move trivial) (by rw [h]; intro i; rfl) (by rw [h]; intro i; rfl) (fun i hx => by cases hx) trivial
  | dunlock h => exact hi.dunlock ht h
  | cleanEnd h =>
    rw [h] at hfit
    exact hi.phase ht (by rw [h]; rfl) rfl (hfit.move trivial) (by rw [h]; intro i; rfl) (by rw [h]; intro i; rfl) (fun i hx => by cases hx) trivial
  | cleanSkip h =>
    rw [h] at hfit
    exact hi.phase ht (by rw [h]; rfl) rfl (hfit.move trivial) (by rw [h]; intro i; rfl) (by rw [h]; intro i; rfl) (fun i hx => by cases hx) trivial
  | clean h hx he hc => exact hi.clean ht h hx he hc
  | markTaken h hc hd =>
    rw [h] at hfit
    exact hi.phase ht (by rw [h]; rfl) rfl (hfit.move trivial) (by rw [h]; intro i; rfl) (by rw [h]; intro i; rfl) (fun i hx => by cases hx) trivial
  | markNew h hc hd => exact hi.markNew ht hc h hd
  | seizeNone h hc hit => exact hi.giveUp ht hc h
  | seizeKeep h hc hit hcan => exact hi.giveUp ht hc h
  | seizeGo h hc hit hcan => exact hi.startWipe ht hc h hit
  | wiped h hc => exact hi.wiped ht hc h
  | @wipe id can it todo p pick i index' h hc hit hq hx ho hindex =>
    have hnd : todo.Nodup := by
      obtain ⟨it', h1, h2⟩ := hi.cont.wip t th id todo ht ⟨⟨can, hc⟩, h⟩
      exact h2.nodup (hi.cont.itm id it' h1).2.2.nodup
    exact hi.wipe ht hc h hit hx ho (List.mem_of_getElem? hq) (mem_eraseIdx hnd hq) (List.eraseIdx_sublist _ _) hindex

theorem Inv.init [Inhabited V] : Inv (St.init : St V A) := by
  refine ⟨?_, ⟨?_, ?_, ?_, ?_, ?_, ?_⟩, ⟨?_, ?_, ?_, ?_, ?_, ?_, ?_⟩, ?_⟩ <;> simp [St.init, St.content, St.Stored, St.MakingAt]

theorem append_cases {l : List (Thread V A)} {y : Thread V A} {u : Nat} {x : Thread V A} (h : (l ++ [y])[u]? = some x) : (u = l.length ∧ x = y) ∨ l[u]? = some x := by
  rw [List.getElem?_append] at h
  split at h
  · exact Or.inr h
  · have hu : u - l.length = 0 := by
      cases hk : u - l.length with
      | zero => rfl
      | succ k => rw [hk] at h; simp at h
    rw [hu] at h
    simp at h
    exact Or.inl ⟨by omega, h.symm⟩

theorem append_old {l : List (Thread V A)} {y : Thread V A} {u : Nat} {x : Thread V A} (h : l[u]? = some x) : (l ++ [y])[u]? = some x := by
  rw [List.getElem?_append_left (List.getElem?_eq_some_iff.1 h).1]; exact h

theorem start_quiet (c : Call V A) : (start c).loud = false ∧ (start c).holds = [] ∧ (start c).touched = [] ∧ (start c).known = [] := by
  cases c <;> exact ⟨rfl, rfl, rfl, rfl⟩

theorem Inv.call {s : St V A} (hi : Inv s) (c : Call V A) (hc : c.creates = true) (hok : c.ok) : Inv { s with threads := s.threads ++ [⟨c, start c, false⟩] } := by
  obtain ⟨q, e1, e2, e3⟩ := start_quiet c
  have hq : (⟨c, start c, false⟩ : Thread V A).phase.loud = false := q
  have hcl : ∀ id p n, s.Claim id p n → ({ s with threads := s.threads ++ [⟨c, start c, false⟩] } : St V A).Claim id p n := by
    rintro id p n ⟨h1, h2, h3⟩
    refine ⟨h1, h2, ?_⟩
    intro u x hu hm
    rcases append_cases hu with ⟨_, e⟩ | hu
    · subst e; exact absurd hm (Thread.quiet_making hq _)
    · exact h3 u x hu hm
  refine ⟨?_, ⟨?_, ?_, hi.locks.idx, ?_, ?_, hi.locks.stale⟩, ⟨?_, hi.cont.nod, hi.cont.itm, ?_, ⟨hi.cont.des.1, ?_⟩, ?_, ?_⟩, ?_⟩
  · intro u x hu
    rcases append_cases hu with ⟨_, e⟩ | hu
    · subst e
      refine ⟨hc, hok, ?_⟩
      cases c <;> first | trivial | cases hc
    · exact hi.creates u x hu
  · intro i u
    refine (hi.locks.own i u).trans ?_
    constructor
    · rintro ⟨x, hu, h⟩; exact ⟨x, append_old hu, h⟩
    · rintro ⟨x, hu, h⟩
      rcases append_cases hu with ⟨_, e⟩ | hu
      · subst e; simp only [e1] at h; cases h
      · exact ⟨x, hu, h⟩
  · intro i
    have := hi.locks.cre i
    simp only [List.map_append, List.map_cons, List.map_nil, List.sum_append, List.sum_cons, List.sum_nil, e2]
    simpa using this
  · intro u x hu i h
    rcases append_cases hu with ⟨_, e⟩ | hu
    · subst e; simp only [e2] at h; cases h
    · exact hi.locks.tch u x hu i h
  · intro u x hu i h
    rcases append_cases hu with ⟨_, e⟩ | hu
    · subst e; simp only [e3] at h; cases h
    · exact hi.locks.knw u x hu i h
  · intro p n id hn
    refine (hi.cont.mem p n id hn).trans (or_congr ?_ ?_)
    · refine exists_congr fun it => and_congr_right fun _ => and_congr_right fun _ => and_congr_right fun _ => ?_
      constructor
      · intro h u x todo hu hw
        rcases append_cases hu with ⟨_, e⟩ | hu
        · subst e; exact absurd hw (Thread.quiet_wiping hq _ _)
        · exact h u x todo hu hw
      · intro h u x todo hu hw; exact h u x todo (append_old hu) hw
    · constructor
      · rintro ⟨u, x, hu, h⟩; exact ⟨u, x, append_old hu, h⟩
      · rintro ⟨u, x, hu, hm, h⟩
        rcases append_cases hu with ⟨_, e⟩ | hu
        · subst e; exact absurd hm (Thread.quiet_making hq _)
        · exact ⟨u, x, hu, hm, h⟩
  · intro u x id hu hm
    rcases append_cases hu with ⟨_, e⟩ | hu
    · subst e; exact absurd hm (Thread.quiet_making hq _)
    · obtain ⟨h1, h2, h3⟩ := hi.cont.mak u x id hu hm
      refine ⟨h1, h2, ?_⟩
      intro v y hv hmv
      rcases append_cases hv with ⟨_, e⟩ | hv
      · subst e; exact absurd hmv (Thread.quiet_making hq _)
      · exact h3 v y hv hmv
  · intro id
    refine (hi.cont.des.2 id).trans ?_
    constructor
    · rintro ⟨u, x, hu, h⟩; exact ⟨u, x, append_old hu, h⟩
    · rintro ⟨u, x, hu, hm⟩
      rcases append_cases hu with ⟨_, e⟩ | hu
      · subst e; exact absurd hm (Thread.quiet_marking hq _)
      · exact ⟨u, x, hu, hm⟩
  · intro u v x y id hu hv hx hy
    rcases append_cases hu with ⟨_, e⟩ | hu
    · subst e; exact absurd hx (Thread.quiet_marking hq _)
    · rcases append_cases hv with ⟨_, e⟩ | hv
      · subst e; exact absurd hy (Thread.quiet_marking hq _)
      · exact hi.cont.one u v x y id hu hv hx hy
  · intro u x id todo hu hw
    rcases append_cases hu with ⟨_, e⟩ | hu
    · subst e; exact absurd hw (Thread.quiet_wiping hq _ _)
    · exact hi.cont.wip u x id todo hu hw
  · have f : Frame s { s with threads := s.threads ++ [⟨c, start c, false⟩] } s.threads.length := by
      refine ⟨Nat.le_refl _, fun _ _ => rfl, fun _ _ _ _ => rfl, fun _ h => h, fun _ _ h => Or.inl h, ?_⟩
      intro id u x hu hm
      rcases append_cases hu with ⟨_, e⟩ | hu
      · subst e; exact absurd hm (Thread.quiet_making hq _)
      · exact Or.inr ⟨x, hu, hm, rfl⟩
    intro u x hu
    rcases append_cases hu with ⟨_, e⟩ | hu
    · subst e
      cases c with
      | create kvs a => exact rfl
      | createOrFind kvs a => exact ⟨[], rfl, fun _ => rfl, fun l e => by cases e⟩
      | createFails kvs => exact ⟨[], rfl, fun _ => rfl, fun l e => by cases e⟩
      | find kvs => exact ⟨[], rfl, fun _ => rfl, fun l e => by cases e⟩
      | delete kvs can => exact ⟨[], rfl, List.Sublist.refl _⟩
      | destroy id can => trivial
    · exact f.phaseOk (hi.locks.knw u x hu) (fun _ _ => rfl) (hi.phs u x hu)

end Willow.AssocConc
