import Verif.Proofs.OneToMany
import Verif.Props.Assoc
/-
Property C25: the one-to-many tree (internal/datastructures/btree_one_to_many) keeps its relations apart.

`OTM.run [] ops`: the code's tree after a history of requests, with its answers.  `OTMSpec.famRun`: the specification, one separate
plain store for each relation id.
-/
namespace Willow.Props
open Assoc Spec OTM OTMSpec

variable {V : Type}

/-- The trees a client can obtain by a history of valid requests. -/
def OTMReachable (o : OTM.Tree Key V) : Prop := ∃ ops outs, (∀ op ∈ ops, ValidOp op) ∧ OTM.run [] ops = some (o, outs)

/-- The items stored under a relation id (none if there is no such relation). -/
def stored (o : OTM.Tree Key V) (b : GoString) : List (Item Key (OItem Key V)) := ((rel o b).map (·.items)).getD []

theorem OTMReachable.sim {o : OTM.Tree Key V} (h : OTMReachable o) : ∃ f, Sim o f ∧ ∀ b s, f b = some s → b ≠ [] ∧ Tagged b s := by
  obtain ⟨ops, outs, hv, hr⟩ := h
  obtain ⟨o', outs', e, hs, _⟩ := run_sim hv (sim_nil (V := V))
  rw [e] at hr
  cases hr
  exact ⟨_, hs, famRun_tagged ops _ (by simp)⟩

/-- Example relation ids. -/
def relA : GoString := [120]
/-- Example relation ids. -/
def relB : GoString := [121]

/-- A history over two relations with equal key-values, used as the example below. -/
def otmOps : List (OOp Key Nat) :=
  [.createOrFind relA [(sa, ki 1)] (some 10), .createOrFind relB [(sa, ki 1)] (some 20), .createOrFind relB [(sa, ki 1), (sb, ki 2)] (some 21),
   .createOrFind relA [(sa, ki 1)] (some 99), .deleteByKeyValues relA [(sa, ki 1)] (some (fun i => i.value == 10)),
   .createOrFind relA [(reservedID, ki 1)] (some 11), .createOrFind [] [(sa, ki 1)] (some 11),
   .matchAction relB id { kvs := [(sa, ⟨ki 1, ⟨1, 1024⟩⟩)] }, .query relB (.mk none [] [] true),
   .destroyOne relA none id, .createOrFind relA [(sb, ki 7)] (some 12), .destroyManyByID relB 0 none]

theorem otmOps_valid : ∀ op ∈ otmOps, ValidOp op := by
  intro op h
  simp only [otmOps, List.mem_cons, List.not_mem_nil, or_false] at h
  rcases h with rfl | rfl | rfl | rfl | rfl | rfl | rfl | rfl | rfl | rfl | rfl | rfl <;> simp only [ValidOp] <;>
    first
    | decide +kernel
    | trivial
    | exact fun l => List.Perm.refl l
    | exact ⟨⟨fun s h => by simp at h, trivial, trivial⟩, Or.inl ⟨rfl, rfl, rfl, rfl⟩⟩
    | exact ⟨⟨by decide +kernel, by decide +kernel, by decide +kernel⟩, by decide +kernel, fun l => List.Perm.refl l⟩

/-- C25.  Every history of valid requests runs without a crash, and the tree is at every moment one separate plain store for each
relation id: what is stored under each id, and every answer, are those of the specification (the order of visited items aside). -/
theorem C25_refines_separate_stores (ops : List (OOp Key V)) (hv : ∀ op ∈ ops, ValidOp op) :
    ∃ o outs, OTM.run [] ops = some (o, outs) ∧
      (∀ b, (rel o b).map (fun t => (⟨t.items, t.next⟩ : Store Key (OItem Key V))) = (famRun (fun _ => none) ops).1 b) ∧
      List.Forall₂ Same outs (famRun (fun _ => none) ops).2 := by
  obtain ⟨o, outs, e, hs, ha⟩ := run_sim hv (sim_nil (V := V))
  exact ⟨o, outs, e, hs.eq, ha⟩

/-- C25.  Isolation.  What a relation stores after any history, and every answer to a request naming it, are the same as if the
requests naming other relations had never been made. -/
theorem C25_isolated (ops : List (OOp Key V)) (hv : ∀ op ∈ ops, ValidOp op) (b : GoString) :
    ∃ o outs o' outs', OTM.run [] ops = some (o, outs) ∧ OTM.run [] (ops.filter (fun op => op.one == b)) = some (o', outs') ∧
      outs.length = ops.length ∧ stored o b = stored o' b ∧
      List.Forall₂ Same (((ops.zip outs).filter (fun x => x.1.one == b)).map (·.2)) outs' := by
  obtain ⟨o, outs, e, hs, ha⟩ := run_sim hv (sim_nil (V := V))
  obtain ⟨o', outs', e', hs', ha'⟩ := run_sim (ops := ops.filter (fun op => op.one == b)) (fun op h => hv op (List.mem_filter.1 h).1) (sim_nil (V := V))
  obtain ⟨h1, h2⟩ := famRun_filter b ops (fun _ => none)
  have hlen : ∀ (l : List (OOp Key V)) (f : Family V), (famRun f l).2.length = l.length := by
    intro l; induction l with
    | nil => intro f; rfl
    | cons x l ih => intro f; simp [famRun, ih]
  have hfl : ∀ (x y : List (OOut Key V)), List.Forall₂ Same x y → x.length = y.length := by
    intro x y h; induction h with
    | nil => rfl
    | cons _ _ ih => simp [ih]
  refine ⟨o, outs, o', outs', e, e', by rw [hfl _ _ ha, hlen], ?_, ?_⟩
  · have h3 : (rel o b).map plain = (rel o' b).map plain := by rw [hs.eq, hs'.eq, h1]
    unfold stored
    cases ha : rel o b <;> cases hb : rel o' b <;> simp_all [plain]
  · have key : ∀ (l : List (OOp Key V)) (as cs : List (OOut Key V)), List.Forall₂ Same as cs →
        List.Forall₂ Same (((l.zip as).filter (fun x => x.1.one == b)).map (·.2)) (((l.zip cs).filter (fun x => x.1.one == b)).map (·.2)) := by
      intro l
      induction l with
      | nil => intro as cs _; simp
      | cons x l ih =>
        intro as cs h
        cases h with
        | nil => simp
        | cons hh ht =>
          simp only [List.zip_cons_cons, List.filter_cons]
          split
          · simp only [List.map_cons]; exact .cons hh (ih _ _ ht)
          · exact ih _ _ ht
    have k := key ops _ _ ha
    rw [h2] at k
    have comb : ∀ (x y z : List (OOut Key V)), List.Forall₂ Same x z → List.Forall₂ Same y z → List.Forall₂ Same x y := by
      intro x y z hx
      induction hx generalizing y with
      | nil => intro hy; cases hy; exact .nil
      | cons h _ ih => intro hy; cases hy with
        | cons h' t' => exact .cons (OTM.Same.symm_trans h h') (ih _ t')
    exact comb _ _ _ k ha'

/-- C25.  No request at all – valid or not – changes what is stored under a relation id it does not name. -/
theorem C25_other_relations_untouched (o o' : OTM.Tree Key V) (op : OOp Key V) (out : OOut Key V) (h : OTM.step o op = some (o', out))
    (b : GoString) (hb : b ≠ op.one) : stored o' b = stored o b := by
  unfold stored; rw [step_other h hb]

/-- C25.  The items a request finds, visits or is asked about are items stored under the relation id it names, and every stored item
carries its own relation id, id and key-values. -/
theorem C25_answers_are_own (o : OTM.Tree Key V) (ho : OTMReachable o) (op : OOp Key V) (hv : ValidOp op) :
    ∃ o' out, OTM.step o op = some (o', out) ∧ ∀ x ∈ mentioned out, x.oneID = op.one ∧
      ∃ i ∈ stored o op.one, i.value = x ∧ x.manyID = i.id ∧ x.kvs = i.kvs := by
  obtain ⟨f, hs, hT⟩ := ho.sim
  obtain ⟨o', out, e, _, ha⟩ := step_sim hs hv
  refine ⟨o', out, e, fun x hx => ?_⟩
  rw [Same.mentioned_mem ha] at hx
  obtain ⟨s, hf, i, hi, rfl⟩ := relStep_mentioned x hx
  obtain ⟨h1, h2, h3, _⟩ := (hT _ _ hf).2 i hi
  refine ⟨h1, i, ?_, rfl, h2, h3⟩
  have := hs.eq op.one
  rw [hf] at this
  unfold stored
  cases hr : rel o op.one with
  | none => rw [hr] at this; simp at this
  | some t => rw [hr] at this; simp [plain] at this; subst this; exact hi

/-- C25.  An empty relation id and reserved keys are refused and change nothing. -/
theorem C25_refused_changes_nothing (o : OTM.Tree Key V) (op : OOp Key V) :
    (op.one = [] → OTM.step o op = some (o, .error .oneIDEmpty)) ∧
    (∀ one kvs v, op = .createOrFind one kvs v → one ≠ [] → (∃ kv ∈ kvs, kv.1 = reservedID) → OTM.step o op = some (o, .error .reservedKeys)) := by
  constructor
  · intro h
    cases op <;> simp only [OOp.one] at h <;> subst h <;>
      simp [OTM.step, OTM.createOrFind, OTM.deleteByKeyValues, OTM.destroyManyByID, OTM.query, OTM.matchAction, OTM.destroyOne, onRelation]
  · rintro one kvs v rfl h1 ⟨kv, hk, he⟩
    have : hasReservedKeys kvs = true := by
      unfold hasReservedKeys; rw [List.any_eq_true]; exact ⟨kv, hk, by simp [he]⟩
    simp [OTM.step, OTM.createOrFind, h1, this]

/-- A decidable view of the answers of the example. -/
def showOut : OOut Key Nat → List Nat
  | .error _ => [0]
  | .created id => [1, id]
  | .found i => [2, i.value, i.manyID]
  | .failed => [3]
  | .deleted a => [4] ++ a.toList.map (·.value)
  | .visited l => [5] ++ l.map (·.value)
  | .destroyed g => [6, if g then 1 else 0]

/-- The example is not trivial: two relations with the same key-values do not see each other. -/
example : (OTM.run [] otmOps).map (fun r => ((stored r.1 relA).map (·.value.value), (stored r.1 relB).map (·.value.value), r.2.map showOut)) =
    some ([12], [21], [[1, 0], [1, 0], [1, 1], [2, 10, 0], [4, 10], [0], [0], [5, 20], [5, 20, 21], [6, 1], [1, 0], [4]]) := by decide +kernel
example : ∃ o : OTM.Tree Key Nat, OTMReachable o ∧ (stored o relA).length = 1 ∧ (stored o relB).length = 1 := by
  obtain ⟨o, outs, e, _⟩ := C25_refines_separate_stores otmOps otmOps_valid
  have hr : OTMReachable o := ⟨otmOps, outs, otmOps_valid, e⟩
  have h : (OTM.run [] otmOps).map (fun r => ((stored r.1 relA).length, (stored r.1 relB).length)) = some (1, 1) := by decide +kernel
  rw [e] at h
  simp at h
  exact ⟨o, hr, h⟩

end Willow.Props
