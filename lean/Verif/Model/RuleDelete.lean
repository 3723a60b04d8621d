import Verif.Model.Limiter
/-
The limiter while rules are being deleted: internal/limiter/rules/rules_client_local.go:235-272 `DeleteRule` in three steps, with other requests between them.

* rules_client_local.go:256 DestroyByAssociatedID marks the id as being destroyed (btree/threadsafe_destroy.go:25-45); then its callback destroys the overrides
  (rules_client_local.go:242, overrides_client_local.go:253-280); then the rule is taken out of the tree (btree_associated/threadsafe_destroy.go:41, btree/threadsafe_destroy.go).
* Every other request is one step (Model/Limiter); increments in steps, without deletions, are in Model/LimiterLocks, the associated tree in steps in Model/AssocConc and
  Model/MatchConc.  That an operation on the tree of ids can have to wait for a destruction under way (Model/AssocConc `busy`) is left out.
* Searches by id do not find a rule that is being destroyed (btree_associated/threadsafe_query.go:58-73: ErrorKeyDestroying is skipped), and MatchAction ends when it
  comes across one (threadsafe_match.go:139-151; C90).
-/
namespace Willow.RuleDelete
open Willow.Assoc Willow.OTM Willow.Limiter

variable {K : Type}

/-- The limiter and the rules being deleted; `true`: their overrides are gone. -/
structure Sys (K : Type) where
  st : State K
  closing : List (Nat × Bool)

/-- A service that has just started. -/
def Sys.init : Sys K := ⟨State.init, []⟩

/-- btree/threadsafe_b_tree.go:110-120: is the rule being destroyed? -/
def Sys.isClosing (s : Sys K) (id : Nat) : Bool := s.closing.any (fun x => x.1 == id)

/-- The rule whose id a request (other than DeleteRule) looks up with QueryAction: rules_client_local.go:183, 217, 296, 392, 423, 450. -/
def named : Op K → Option Nat
  | .getRule id | .updateRule id _ | .createOverride id _ _ | .getOverride id _ | .updateOverride id _ _ | .deleteOverride id _ => some id
  | _ => none

section
variable [KeyOps K]

/-- rules_client_local.go:469-529 `FindLimits`: the match ends at the first rule that is being destroyed. -/
def findLimits (s : Sys K) (ch : Choice K) (kvs : KVs K) : Option (Option (List Found)) :=
  match s.st.rules.matchAction ch.shuffle (anyMatchQuery kvs) with
  | none => none
  | some l => findLimitsLoop s.st ch kvs ((ch.rules l).takeWhile (fun i => !s.isClosing i.id))

/-- counter_client_local.go:81-234: what follows from the limits found (as in Model/Limiter `increment`). -/
def decideOn (st : State K) (ch : Choice K) (kvs : KVs K) (c : Int) : Option (Option (List Found)) → Option (State K × Out K)
  | none => none
  | some none => some (st, .internal)
  | some (some rules) =>
    if lastIsZero rules then some (st, .conflict)
    else if limited rules then
      match checkAll st ch kvs (rules.flatMap Found.limits) with
      | none => none
      | some false => some (st, .conflict)
      | some true => addCounter st kvs c
    else addCounter st kvs c

/-- One request other than DeleteRule. -/
def serve (s : Sys K) (op : Op K) : Option (Sys K × Out K) :=
  match op with
  | .upsert ch kvs c =>
    if c > 0 then (decideOn s.st ch kvs c (findLimits s ch kvs)).map (fun r => (⟨r.1, s.closing⟩, r.2))
    else (step s.st op).map (fun r => (⟨r.1, s.closing⟩, r.2))
  | _ =>
    match named op with
    | some id => if s.isClosing id then some (s, .notFound) else (step s.st op).map (fun r => (⟨r.1, s.closing⟩, r.2))
    | none => (step s.st op).map (fun r => (⟨r.1, s.closing⟩, r.2))

/-- What happens. -/
inductive Ev (K : Type) where
  /-- a request other than DeleteRule is answered -/
  | served (op : Op K) (out : Out K)
  /-- DeleteRule for a rule that is there begins -/
  | begin (id : Nat)
  /-- DeleteRule is answered -/
  | deleted (id : Nat) (out : Out K)

/-- One step. -/
inductive Step : Sys K → Option (Ev K) → Sys K → Prop where
  /-- a request other than DeleteRule -/
  | serve {s s' : Sys K} {op : Op K} {out : Out K} (hop : ∀ ch id, op ≠ .deleteRule ch id) (h : serve s op = some (s', out)) : Step s (some (.served op out)) s'
  /-- rules_client_local.go:239, 256: DeleteRule for a rule that is not there -/
  | missing {s : Sys K} (id : Nat) (hc : s.isClosing id = false) (h : s.st.rules.itemById id = none) : Step s (some (.deleted id .notFound)) s
  /-- rules_client_local.go:256-260: DeleteRule for a rule that is being deleted -/
  | again {s : Sys K} (id : Nat) (hc : s.isClosing id = true) : Step s (some (.deleted id .conflict)) s
  /-- rules_client_local.go:256: the rule is marked -/
  | begin {s : Sys K} (id : Nat) {i : Item K Int} (hc : s.isClosing id = false) (h : s.st.rules.itemById id = some i) :
      Step s (some (.begin id)) { s with closing := s.closing ++ [(id, false)] }
  /-- rules_client_local.go:242: its overrides are destroyed; `ord`: the order in which they are visited -/
  | wipe {s : Sys K} (id : Nat) (ord : List (Item K (OItem K Int)) → List (Item K (OItem K Int))) {o : OTM.Tree K Int} {out : OOut K Int} (hc : (id, false) ∈ s.closing)
      (ho : ∀ l, (ord l).Perm l) (h : OTM.destroyOne s.st.overrides (idStr id) (some fun _ => true) ord = some (o, out)) (hout : ∀ e, out ≠ .error e) :
      Step s none ⟨{ s.st with overrides := o }, s.closing.map (fun x => if x.1 = id then (id, true) else x)⟩
  /-- rules_client_local.go:242-244: destroying the overrides fails; the rule stays -/
  | wipeFails {s : Sys K} (id : Nat) (ord : List (Item K (OItem K Int)) → List (Item K (OItem K Int))) {o : OTM.Tree K Int} {e : OTM.Err} (hc : (id, false) ∈ s.closing)
      (ho : ∀ l, (ord l).Perm l) (h : OTM.destroyOne s.st.overrides (idStr id) (some fun _ => true) ord = some (o, .error e)) :
      Step s (some (.deleted id .internal)) ⟨{ s.st with overrides := o }, s.closing.filter (fun x => x.1 != id)⟩
  /-- rules_client_local.go:246-271: the rule is taken out, the answer -/
  | finish {s : Sys K} (id : Nat) {t : ATree K Int} {r : Option (Item K Int)} (hc : (id, true) ∈ s.closing) (h : s.st.rules.destroyById id (some fun _ => true) = some (t, r)) :
      Step s (some (.deleted id .ok)) ⟨{ s.st with rules := t }, s.closing.filter (fun x => x.1 != id)⟩

/-- A history: the events, in order. -/
inductive Run : Sys K → List (Ev K) → Sys K → Prop where
  | nil {s : Sys K} : Run s [] s
  | step {s s' s'' : Sys K} {evs : List (Ev K)} {e : Option (Ev K)} (h : Run s evs s') (h' : Step s' e s'') : Run s (evs ++ e.toList) s''

end
end Willow.RuleDelete
