import Verif.Proofs.AssocMore
import Verif.Spec.OneToMany
import Verif.Proofs.BTreeTop
/-! The one-to-many tree refines a family of separate stores. -/
namespace Willow.OTM
open Willow Willow.Assoc Willow.Spec Willow.OTMSpec

variable {V : Type}

/-- The plain view of an associated tree. -/
def plain (t : ATree Key (OItem Key V)) : Rel V := ⟨t.items, t.next⟩

/-- The simulation relation. -/
structure Sim (o : Tree Key V) (f : Family V) : Prop where
  uniq : Uniq seq o
  inv : ∀ b t, rel o b = some t → Assoc.Inv t
  eq : ∀ b, (rel o b).map plain = f b

theorem sim_nil : Sim ([] : Tree Key V) (fun _ => none) := ⟨by simp [Uniq], by simp [rel], by simp [rel]⟩

theorem seq_iff {a b : GoString} : seq a b = true ↔ a = b := by simp [seq]

theorem rel_upsert {o : Tree Key V} {a b : GoString} {t : ATree Key (OItem Key V)} :
    rel (aupsert seq a (fun _ => t) o) b = if b = a then some t else rel o b := by
  unfold rel
  rw [alookup_aupsert seq_equiv]
  by_cases h : a = b
  · subst h; simp [seq]
  · rw [if_neg (by simp [seq, h]), if_neg (fun e => h e.symm)]

theorem Sim.put {o : Tree Key V} {f : Family V} (h : Sim o f) {a : GoString} {t : ATree Key (OItem Key V)} (ht : Assoc.Inv t) {r : Option (Rel V)}
    (hr : r = some (plain t)) : Sim (aupsert seq a (fun _ => t) o) (fun b => if b = a then r else f b) := by
  subst hr
  refine ⟨uniq_aupsert h.uniq, ?_, ?_⟩
  · intro b t'
    rw [rel_upsert]
    split
    · intro e; injection e with e; subst e; exact ht
    · exact h.inv b t'
  · intro b
    rw [rel_upsert]
    split
    · rfl
    · exact h.eq b

theorem Sim.same {o : Tree Key V} {f : Family V} (h : Sim o f) {a : GoString} {r : Option (Rel V)}
    (hr : r = f a) : Sim o (fun b => if b = a then r else f b) := by
  refine ⟨h.uniq, h.inv, fun b => ?_⟩
  by_cases e : b = a
  · subst e; rw [if_pos rfl, hr, h.eq]
  · rw [if_neg e, h.eq]

theorem Sim.getD {o : Tree Key V} {f : Family V} (h : Sim o f) (a : GoString) :
    Assoc.Inv ((rel o a).getD ATree.new) ∧ plain ((rel o a).getD ATree.new) = (f a).getD ⟨[], 0⟩ := by
  rw [← h.eq a]
  cases e : rel o a with
  | none => exact ⟨inv_new, rfl⟩
  | some t => exact ⟨h.inv a t e, rfl⟩

theorem Same.refl (o : OOut Key V) : Same o o := by cases o <;> simp [Same]

/-- A step is simulated. -/
def Simulated (o : Tree Key V) (f : Family V) (op : OOp Key V) : Prop :=
  ∃ o' out, step o op = some (o', out) ∧ Sim o' (famStep f op).1 ∧ Same out (famStep f op).2

theorem sim_createOrFind {o : Tree Key V} {f : Family V} (h : Sim o f) (one : GoString) {kvs : KVs Key} (hv : ValidKVs kvs) (v : Option V) :
    Simulated o f (.createOrFind one kvs v) := by
  unfold Simulated famStep
  have hE : List.any kvs (fun kv => kv.1 == reservedID) = hasReservedKeys kvs := rfl
  simp only [step, createOrFind, OOp.one, relStep, hE]
  by_cases h1 : one = []
  · simp only [if_pos h1]; exact ⟨_, _, rfl, h.same rfl, Same.refl _⟩
  by_cases h2 : hasReservedKeys kvs = true
  · simp only [if_neg h1, if_pos h2]; exact ⟨_, _, rfl, h.same rfl, Same.refl _⟩
  simp only [if_neg h1, if_neg h2]
  obtain ⟨hI, hp⟩ := h.getD one
  rw [← hp]
  generalize (rel o one).getD ATree.new = t at hI
  obtain ⟨t', out, e, hI', hs⟩ := hI.createOrFind hv (v.map (newItem t one kvs))
  rw [e]
  refine ⟨_, _, rfl, h.put hI' ?_, ?_⟩ <;>
    simp only [storeStep] at hs <;> unfold plain <;> revert hs <;>
    cases hf : t.items.find? (fun i => sameKVs kvs i.kvs) <;> cases v <;> simp [newItem] <;> intro hs1 hs2 <;>
    cases out <;> simp_all [seen, createOut, Same] <;> grind

theorem sim_onRelation {o : Tree Key V} {f : Family V} (h : Sim o f) {op : OOp Key V} {one : GoString} (ho : op.one = one)
    (g : ATree Key (OItem Key V) → Option (ATree Key (OItem Key V) × OOut Key V)) (dflt : OOut Key V)
    (hstep : step o op = onRelation o one g dflt)
    (h0 : one = [] → ∀ r, relStep r op = (r, .error .oneIDEmpty))
    (h1 : one ≠ [] → relStep none op = (none, dflt))
    (h2 : one ≠ [] → ∀ t, Assoc.Inv t → ∃ t' out, g t = some (t', out) ∧ Assoc.Inv t' ∧ (relStep (some (plain t)) op).1 = some (plain t') ∧
      Same out (relStep (some (plain t)) op).2) :
    Simulated o f op := by
  subst ho
  unfold Simulated famStep
  rw [hstep]
  unfold onRelation
  by_cases e : op.one = []
  · rw [if_pos e, h0 e]; exact ⟨_, _, rfl, h.same rfl, Same.refl _⟩
  rw [if_neg e]
  have hq := h.eq op.one
  cases hr : rel o op.one with
  | none =>
    rw [hr] at hq
    simp only [Option.map_none] at hq
    rw [← hq, h1 e]
    exact ⟨_, _, rfl, h.same hq, Same.refl _⟩
  | some t =>
    rw [hr] at hq
    simp only [Option.map_some] at hq
    obtain ⟨t', out, eg, hI, hp, hs⟩ := h2 e t (h.inv _ _ hr)
    rw [← hq]
    simp only [eg]
    exact ⟨_, _, rfl, h.put hI hp, hs⟩

theorem remove_eq {t : ATree Key (OItem Key V)} {one : GoString} (h1 : one ≠ []) (p : Item Key (OItem Key V) → Bool) (can : Option (OItem Key V → Bool))
    {t' : ATree Key (OItem Key V)} {out : Option (Item Key (OItem Key V))}
    (hs : Store.remove ⟨t.items, t.next⟩ p (onItem can) = (⟨t'.items, t'.next⟩, .deleted out)) :
    (relStep.remove (some (plain t)) one p can).1 = some (plain t') ∧
      Same (.deleted (out.map (·.value))) (relStep.remove (some (plain t)) one p can).2 := by
  unfold relStep.remove
  rw [if_neg h1]
  unfold Store.remove at hs
  simp only [plain] at hs ⊢
  revert hs
  cases t.items.find? p <;> cases can <;> simp [onItem] <;> (try split) <;> simp [Same] <;> grind

theorem approved_const {l : List (Item Key (OItem Key V))} (a : Item Key (OItem Key V) → Bool) (s : Bool) :
    approved (fun _ i => (a i, a i)) l s = (l.takeWhile a, if l = [] then s else l.all a) := by
  induction l generalizing s with
  | nil => rfl
  | cons i is ih =>
    unfold approved
    cases h : a i with
    | false => simp [h]
    | true =>
      simp only [h, ih]
      cases is <;> simp [h]

theorem sim_destroyOne {o : Tree Key V} {f : Family V} (h : Sim o f) (one : GoString) (can : Option (OItem Key V → Bool))
    (ord : List (Item Key (OItem Key V)) → List (Item Key (OItem Key V))) (hord : ∀ l, (ord l).Perm l) :
    Simulated o f (.destroyOne one can ord) := by
  unfold Simulated famStep
  simp only [step, destroyOne, OOp.one, relStep]
  by_cases h1 : one = []
  · simp only [if_pos h1]; exact ⟨_, _, rfl, h.same rfl, Same.refl _⟩
  simp only [if_neg h1]
  have hq := h.eq one
  cases hr : rel o one with
  | none =>
    rw [hr] at hq
    simp only [Option.map_none] at hq
    simp only [← hq]
    exact ⟨_, _, rfl, h.same hq, Same.refl _⟩
  | some t =>
    rw [hr] at hq
    simp only [Option.map_some] at hq
    simp only [← hq]
    have hI := h.inv _ _ hr
    have ha : (fun i : Item Key (OItem Key V) => can.all (fun g => g i.value)) = agrees can := by
      funext i; cases can <;> rfl
    simp only [ha]
    generalize agrees can = a
    obtain ⟨t', e, hI', hn, hi⟩ := destroyTree_spec (fun (_ : Bool) i => (a i, a i)) (ord t.items) t true hI
      ((hord _).nodup_iff.2 (nodup_of_ids hI.ids)) (fun i hi => (hord _).mem_iff.1 hi)
    rw [approved_const] at hi
    simp only [e, approved_const]
    simp only at hi
    have hall : (if ord t.items = [] then true else (ord t.items).all a) = t.items.all a := by
      have : (ord t.items).all a = t.items.all a := by
        rw [Bool.eq_iff_iff, List.all_eq_true, List.all_eq_true]
        exact ⟨fun hh x hx => hh x ((hord _).mem_iff.2 hx), fun hh x hx => hh x ((hord _).mem_iff.1 hx)⟩
      split
      · rename_i h0; rw [h0] at this; rw [← this]; rfl
      · exact this
    simp only [hall, plain]
    refine ⟨_, _, rfl, ?_, ?_⟩
    · refine ⟨uniq_aremove h.uniq, ?_, ?_⟩
      · intro b tb
        unfold rel
        rw [alookup_aremove seq_equiv h.uniq]
        split
        · rw [show alookup seq one o = some t from hr]
          simp only [Option.bind_some]
          split
          · simp
          · intro e; injection e with e; subst e; exact hI'
        · exact h.inv b tb
      · intro b
        unfold rel
        rw [alookup_aremove seq_equiv h.uniq]
        by_cases e : b = one
        · subst e
          rw [if_pos (by simp [seq]), if_pos rfl, show alookup seq b o = some t from hr]
          simp only [Option.bind_some]
          by_cases hA : t.items.all a = true
          · simp only [hA, if_true]; rfl
          · simp only [hA]; simp [plain, hi, hn]
        · rw [if_neg (by simpa [seq] using fun h => e h.symm), if_neg e]
          exact h.eq b
    · by_cases hA : t.items.all a = true
      · simp [hA, Same]
      · simp [hA, Same]

theorem step_sim {o : Tree Key V} {f : Family V} (h : Sim o f) {op : OOp Key V} (hv : ValidOp op) : Simulated o f op := by
  cases op with
  | createOrFind one kvs v => exact sim_createOrFind h one hv v
  | deleteByKeyValues one kvs can =>
    refine sim_onRelation (one := one) h rfl _ _ (by unfold step deleteByKeyValues; rfl) ?_ ?_ ?_
    · intro e r; simp [relStep, relStep.remove, e]
    · intro e; simp [relStep, relStep.remove, e]
    · intro e t hI
      obtain ⟨h1, h2⟩ := hI.delete (show ValidKVs kvs from hv) (onItem can)
      obtain ⟨h3, h4⟩ := remove_eq e _ can h2
      exact ⟨_, _, rfl, h1, h3, h4⟩
  | destroyManyByID one id can =>
    refine sim_onRelation (one := one) h rfl _ _ (by unfold step destroyManyByID; rfl) ?_ ?_ ?_
    · intro e r; simp [relStep, relStep.remove, e]
    · intro e; simp [relStep, relStep.remove, e]
    · intro e t hI
      obtain ⟨t', out, e1, h1, h2⟩ := hI.destroyById id (onItem can)
      simp only [storeStep] at h2
      obtain ⟨h3, h4⟩ := remove_eq e _ can h2
      exact ⟨t', _, by rw [e1]; rfl, h1, h3, h4⟩
  | query one q =>
    refine sim_onRelation (one := one) h rfl _ _ (by unfold step query; rfl) ?_ ?_ ?_
    · intro e r; simp [relStep, relStep.visit, e]
    · intro e; simp [relStep, relStep.visit, e]
    · intro e t hI
      obtain ⟨l, e1, hp⟩ := queryAction_spec hI (show everywhere SelOk Asks q from hv.1) hv.2
      refine ⟨t, _, by rw [e1]; rfl, hI, by simp [relStep, relStep.visit, e], ?_⟩
      simp only [relStep, relStep.visit, if_neg e, Same, plain]
      exact hp.map _
  | matchAction one sh mq =>
    refine sim_onRelation (one := one) h rfl _ _ (by unfold step matchAction; rfl) ?_ ?_ ?_
    · intro e r; simp [relStep, relStep.visit, e]
    · intro e; simp [relStep, relStep.visit, e]
    · intro e t hI
      obtain ⟨hm, hb, hsh⟩ := hv
      rcases matchAction_spec hI hm hsh with ⟨l, e1, _, hp⟩ | ⟨_, h1, h2⟩
      · refine ⟨t, _, by rw [e1]; rfl, hI, by simp [relStep, relStep.visit, e], ?_⟩
        simp only [relStep, relStep.visit, if_neg e, Same, plain]
        exact hp.map _
      · omega
  | destroyOne one can ord => exact sim_destroyOne h one can ord hv

theorem run_sim {ops : List (OOp Key V)} (hv : ∀ op ∈ ops, ValidOp op) : ∀ {o : Tree Key V} {f : Family V}, Sim o f →
    ∃ o' outs, run o ops = some (o', outs) ∧ Sim o' (famRun f ops).1 ∧ List.Forall₂ Same outs (famRun f ops).2 := by
  induction ops with
  | nil => intro o f h; exact ⟨o, [], rfl, h, .nil⟩
  | cons op ops ih =>
    intro o f h
    obtain ⟨o1, out, e1, h1, s1⟩ := step_sim h (hv op (by simp))
    obtain ⟨o2, outs, e2, h2, s2⟩ := ih (fun op' ho => hv op' (by simp [ho])) h1
    exact ⟨o2, out :: outs, by simp [run, e1, e2], h2, .cons s1 s2⟩

/-! ### The family -/

theorem famRun_filter (b : GoString) (ops : List (OOp Key V)) : ∀ f : Family V,
    (famRun f ops).1 b = (famRun f (ops.filter (fun op => op.one == b))).1 b ∧
    (((ops.zip (famRun f ops).2).filter (fun x => x.1.one == b)).map (·.2)) = (famRun f (ops.filter (fun op => op.one == b))).2 := by
  have congr : ∀ (l : List (OOp Key V)), (∀ op ∈ l, op.one = b) → ∀ f g : Family V, f b = g b →
      (famRun f l).1 b = (famRun g l).1 b ∧ (famRun f l).2 = (famRun g l).2 := by
    intro l
    induction l with
    | nil => intro _ f g h; exact ⟨h, rfl⟩
    | cons op l ih =>
      intro hl f g h
      have ho := hl op (by simp)
      have hs : (famStep f op).1 b = (famStep g op).1 b ∧ (famStep f op).2 = (famStep g op).2 := by
        simp [famStep, ho, h]
      obtain ⟨h1, h2⟩ := ih (fun x hx => hl x (by simp [hx])) _ _ hs.1
      simp only [famRun]
      exact ⟨h1, by rw [h2, hs.2]⟩
  induction ops with
  | nil => intro f; exact ⟨rfl, rfl⟩
  | cons op ops ih =>
    intro f
    obtain ⟨h1, h2⟩ := ih (famStep f op).1
    by_cases e : op.one = b
    · simp only [famRun, List.zip_cons_cons, List.filter_cons, e, beq_self_eq_true, if_true, List.map_cons]
      exact ⟨h1, by rw [h2]⟩
    · have e' : (op.one == b) = false := by simp [e]
      simp only [famRun, List.zip_cons_cons, List.filter_cons, e']
      have hf : (famStep f op).1 b = f b := by
        simp only [famStep]; exact if_neg (fun h => e h.symm)
      obtain ⟨h3, h4⟩ := congr (ops.filter (fun op => op.one == b)) (by intro op h; simpa using (List.mem_filter.1 h).2) _ _ hf
      exact ⟨by simpa using h1.trans h3, by simpa using h2.trans h4⟩

/-- What is stored in a relation describes itself. -/
def Tagged (b : GoString) (s : Rel V) : Prop :=
  ∀ i ∈ s.items, i.value.oneID = b ∧ i.value.manyID = i.id ∧ i.value.kvs = i.kvs ∧ ¬ i.kvs.any (fun kv => kv.1 == reservedID) = true

theorem tagged_filter {b : GoString} {s : Rel V} {n : Nat} (h : Tagged b s) (p : Item Key (OItem Key V) → Bool) : Tagged b ⟨s.items.filter p, n⟩ :=
  fun i hi => h i (List.mem_filter.1 hi).1

theorem relStep_tagged {r : Option (Rel V)} {op : OOp Key V} (h : ∀ s, r = some s → op.one ≠ [] ∧ Tagged op.one s) :
    ∀ s, (relStep r op).1 = some s → op.one ≠ [] ∧ Tagged op.one s := by
  have hrem : ∀ (p : Item Key (OItem Key V) → Bool) can s, (relStep.remove r op.one p can).1 = some s → op.one ≠ [] ∧ Tagged op.one s := by
    intro p can s
    unfold relStep.remove
    split
    · exact h s
    · cases r with
      | none => simp
      | some s0 =>
        obtain ⟨h0, hT⟩ := h s0 rfl
        simp only
        split
        · rintro ⟨⟩; exact ⟨h0, hT⟩
        · rintro ⟨⟩; exact ⟨h0, tagged_filter hT _⟩
        · split
          · rintro ⟨⟩; exact ⟨h0, tagged_filter hT _⟩
          · rintro ⟨⟩; exact ⟨h0, hT⟩
  have hvis : ∀ (p : Item Key (OItem Key V) → Bool) s, (relStep.visit r op.one p).1 = some s → op.one ≠ [] ∧ Tagged op.one s := by
    intro p s
    unfold relStep.visit
    split
    · exact h s
    · cases r with
      | none => simp
      | some s0 => intro e; simp only [Option.some.injEq] at e; subst e; exact h s0 rfl
  cases op with
  | createOrFind one kvs v =>
    intro s
    simp only [relStep, OOp.one] at h ⊢
    split
    · exact h s
    · split
      · exact h s
      · rename_i h1 h2
        have hT : Tagged one (r.getD ⟨[], 0⟩) := by
          cases r with
          | none => intro i hi; cases hi
          | some s0 => exact (h s0 rfl).2
        split
        · rintro ⟨⟩; exact ⟨h1, hT⟩
        · rintro ⟨⟩
          refine ⟨h1, ?_⟩
          intro i hi
          rcases List.mem_append.1 hi with hi | hi
          · exact hT i hi
          · rw [List.mem_singleton.1 hi]; exact ⟨rfl, rfl, rfl, h2⟩
        · rintro ⟨⟩; exact ⟨h1, hT⟩
  | deleteByKeyValues one kvs can => exact hrem _ can
  | destroyManyByID one id can => exact hrem _ can
  | query one q => exact hvis _
  | matchAction one sh mq => exact hvis _
  | destroyOne one can ord =>
    intro s
    simp only [relStep, OOp.one] at h ⊢
    split
    · exact h s
    · cases r with
      | none => simp
      | some s0 =>
        simp only
        split
        · simp
        · rintro ⟨⟩; exact ⟨(h s0 rfl).1, tagged_filter (h s0 rfl).2 _⟩

theorem famRun_tagged (ops : List (OOp Key V)) : ∀ f : Family V, (∀ b s, f b = some s → b ≠ [] ∧ Tagged b s) →
    ∀ b s, (famRun f ops).1 b = some s → b ≠ [] ∧ Tagged b s := by
  induction ops with
  | nil => intro f h; exact h
  | cons op ops ih =>
    intro f h
    refine ih _ ?_
    intro b s
    simp only [famStep]
    split
    · rename_i e; subst e; exact relStep_tagged (fun s' => h op.one s') s
    · exact h b s

end Willow.OTM

namespace Willow.OTM
open Willow Willow.Assoc Willow.Spec Willow.OTMSpec

variable {V : Type}

theorem alookup_aremove_ne {B : Type} {a b : GoString} {f : B → Option B} (h : b ≠ a) : ∀ l : List (GoString × B),
    alookup seq b (aremove seq a f l) = alookup seq b l
  | [] => rfl
  | x :: l => by
    unfold aremove
    by_cases e : seq x.1 a = true
    · rw [if_pos e]
      have hx : x.1 = a := seq_iff.1 e
      have hxb : seq x.1 b = false := by rw [Bool.eq_false_iff]; intro e'; exact h ((seq_iff.1 e').symm.trans hx)
      cases f x.2 with
      | none => simp only; rw [alookup_cons, hxb]; rfl
      | some y => simp only; rw [alookup_cons, alookup_cons]; simp only [hxb]; rfl
    · rw [if_neg e, alookup_cons, alookup_cons, alookup_aremove_ne h l]

theorem step_other {o o' : Tree Key V} {op : OOp Key V} {out : OOut Key V} (h : step o op = some (o', out)) {b : GoString} (hb : b ≠ op.one) :
    rel o' b = rel o b := by
  have hrel : ∀ {g d}, onRelation o op.one g d = some (o', out) → rel o' b = rel o b := by
    intro g d hh
    unfold onRelation at hh
    split at hh
    · cases hh; rfl
    · cases e : rel o op.one with
      | none => rw [e] at hh; cases hh; rfl
      | some t =>
        rw [e] at hh
        simp only at hh
        cases e2 : g t with
        | none => rw [e2] at hh; cases hh
        | some x => rw [e2] at hh; cases hh; rw [rel_upsert, if_neg hb]
  cases op with
  | createOrFind one kvs v =>
    simp only [step, createOrFind] at h
    split at h
    · cases h; rfl
    · split at h
      · cases h; rfl
      · split at h
        · cases h
        · cases h; rw [rel_upsert]; exact if_neg hb
  | deleteByKeyValues one kvs can => simp only [step, deleteByKeyValues] at h; exact hrel (show onRelation o one _ _ = _ from h)
  | destroyManyByID one id can => simp only [step, destroyManyByID] at h; exact hrel (show onRelation o one _ _ = _ from h)
  | query one q => simp only [step, query] at h; exact hrel (show onRelation o one _ _ = _ from h)
  | matchAction one sh mq => simp only [step, matchAction] at h; exact hrel (show onRelation o one _ _ = _ from h)
  | destroyOne one can ord =>
    simp only [step, destroyOne] at h
    split at h
    · cases h; rfl
    · split at h
      · cases h; rfl
      · split at h
        · cases h
        · cases h; exact alookup_aremove_ne hb o

theorem Same.symm_trans {a b c : OOut Key V} (h1 : Same a c) (h2 : Same b c) : Same a b := by
  cases a <;> cases b <;> cases c <;> simp_all [Same] <;> exact h1.trans h2.symm

/-- The items an answer mentions. -/
def mentioned : OOut Key V → List (OItem Key V)
  | .found i => [i]
  | .deleted (some i) => [i]
  | .visited l => l
  | _ => []

theorem Same.mentioned_mem {a b : OOut Key V} (h : Same a b) (x : OItem Key V) : x ∈ mentioned a ↔ x ∈ mentioned b := by
  cases a <;> cases b <;> simp_all [Same, mentioned]
  exact h.mem_iff

/-- Answers mention only items that were stored in the named relation. -/
theorem relStep_mentioned {r : Option (Rel V)} {op : OOp Key V} :
    ∀ x ∈ mentioned (relStep r op).2, ∃ s, r = some s ∧ ∃ i ∈ s.items, i.value = x := by
  have hrem : ∀ (p : Item Key (OItem Key V) → Bool) can one, ∀ x ∈ mentioned (relStep.remove r one p can).2, ∃ s, r = some s ∧ ∃ i ∈ s.items, i.value = x := by
    intro p can one x
    unfold relStep.remove
    split
    · simp [mentioned]
    · cases r with
      | none => simp [mentioned]
      | some s0 =>
        simp only
        cases hf : s0.items.find? p with
        | none => simp [mentioned]
        | some i =>
          have := List.mem_of_find?_eq_some hf
          cases can with
          | none => simp [mentioned]
          | some f =>
            simp only
            split <;> simp [mentioned] <;> rintro rfl <;> exact ⟨i, this, rfl⟩
  have hvis : ∀ (p : Item Key (OItem Key V) → Bool) one, ∀ x ∈ mentioned (relStep.visit r one p).2, ∃ s, r = some s ∧ ∃ i ∈ s.items, i.value = x := by
    intro p one x
    unfold relStep.visit
    split
    · simp [mentioned]
    · cases r with
      | none => simp [mentioned]
      | some s0 =>
        simp only [mentioned, List.mem_map, List.mem_filter]
        rintro ⟨i, ⟨hi, _⟩, rfl⟩
        exact ⟨s0, rfl, i, hi, rfl⟩
  cases op with
  | createOrFind one kvs v =>
    intro x
    simp only [relStep]
    split
    · simp [mentioned]
    · split
      · simp [mentioned]
      · cases r with
        | none => cases v <;> simp [mentioned]
        | some s0 =>
          simp only [Option.getD_some]
          cases hf : s0.items.find? (fun i => sameKVs kvs i.kvs) with
          | none => cases v <;> simp [mentioned]
          | some i =>
            have := List.mem_of_find?_eq_some hf
            simp [mentioned]; rintro rfl; exact ⟨i, this, rfl⟩
  | deleteByKeyValues one kvs can => exact hrem _ can one
  | destroyManyByID one id can => exact hrem _ can one
  | query one q => exact hvis _ one
  | matchAction one sh mq => exact hvis _ one
  | destroyOne one can ord =>
    intro x
    simp only [relStep]
    split
    · simp [mentioned]
    · cases r with
      | none => simp [mentioned]
      | some s0 => simp only; split <;> simp [mentioned]

end Willow.OTM
