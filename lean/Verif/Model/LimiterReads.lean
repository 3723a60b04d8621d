import Verif.Model.Limiter
/-
Model of the reads of rules and overrides: internal/limiter/rules/rules_client_local.go:81-145, 313-373,
internal/limiter/overrides/overrides_client_local.go:118-194, the handlers
(internal/limiter/api/v1/handlers/rules_handler.go:44-92, overrides_handler.go:45-95) and the validation of the answers
(pkg/models/api/server.go:69-101, pkg/models/api/limiter/v1/{rule,rules,override,overrides}.go).

`none` = the request panics.  That a rule is being destroyed (409) only matters to concurrent requests and is left out.
-/
namespace Willow.Limiter
open Willow.Assoc Willow.OTM

variable {K : Type}

/-- A rule or override in an answer (rules_client_local.go:89-101, overrides_client_local.go:126-138). -/
structure Entry (K : Type) where
  id : Nat
  kvs : KVs K
  limit : Int

/-- The answers to a read. -/
inductive RAns (K : Type) where
  /-- 200 -/
  | found (l : List (Entry K))
  /-- 404 -/
  | notFound
  /-- 500 -/
  | internal

/-- rules_client_local.go:86-101, 120-135. -/
def ruleEntry (i : Item K Int) : Entry K := ⟨i.id, i.kvs, i.value⟩
/-- overrides_client_local.go:123-138, 162-177. -/
def overrideEntry (x : OItem K Int) : Entry K := ⟨x.manyID, x.kvs, x.value⟩

section
variable [KeyOps K]

/-- rule.go:21-120, override.go:19-102 `Validate`, with map_string_encapsulated_value.go:40-52: key-values that are not empty and
have types up to MaxDataType, and a limit of at least -1. -/
def Entry.validate (e : Entry K) : Bool :=
  !e.kvs.isEmpty && e.kvs.all (fun kv => decide (KeyOps.typ kv.2 ≤ DataType.max)) && decide (-1 ≤ e.limit)

/-- `ModelEncodeResponse` (server.go:69-101) with Rules.Validate (rules.go:16-32) or Overrides.Validate (overrides.go:16-32). -/
def readAnswer (l : List (Entry K)) : RAns K := if l.all Entry.validate then .found l else .internal

/-- rules_client_local.go:81-112 `QueryRules`, rules_handler.go:44-67. -/
def queryRules (st : State K) (q : Query K) : Option (RAns K) :=
  match st.rules.queryAction q with
  | none => none
  | some l => some (readAnswer (l.map ruleEntry))

/-- rules_client_local.go:114-145 `MatchRules`, rules_handler.go:69-92. -/
def matchRules (st : State K) (ch : Choice K) (mq : MatchQuery K) : Option (RAns K) :=
  match st.rules.matchAction ch.shuffle mq with
  | none => none
  | some l => some (readAnswer (l.map ruleEntry))

/-- What the callbacks on the rule return for a read of its overrides (overrides_client_local.go:143-155, 182-194): the answer, or an
internal error. -/
def readOverrides : Option (OTM.Tree K Int × OOut K Int) → Option (RAns K)
  | none => none
  | some (_, .visited l) => some (readAnswer (l.map overrideEntry))
  | some _ => some .internal

/-- rules_client_local.go:313-342 `QueryOverrides`, overrides_client_local.go:118-155, overrides_handler.go:45-69. -/
def readQueryOverrides (st : State K) (rule : Nat) (q : Query K) : Option (RAns K) :=
  match st.rules.queryAction (idQuery rule) with
  | none => none
  | some [] => some .notFound
  | some (_ :: _) => readOverrides (OTM.query st.overrides (idStr rule) q)

/-- rules_client_local.go:344-373 `MatchOverrides`, overrides_client_local.go:157-194, overrides_handler.go:71-95. -/
def readMatchOverrides (st : State K) (ch : Choice K) (rule : Nat) (mq : MatchQuery K) : Option (RAns K) :=
  match st.rules.queryAction (idQuery rule) with
  | none => none
  | some [] => some .notFound
  | some (_ :: _) => readOverrides (OTM.matchAction st.overrides (idStr rule) ch.shuffle mq)

end
end Willow.Limiter
