import Verif.Model.DataTypes
import Verif.Model.Queue
import Verif.Model.Config
/-!
Words for C85: the settings as their usage texts (`-help`) document them.  Only the names of the flags and the type `Val` are shared with the model.
-/
namespace Willow.Config
open Willow.Queue (str)

/-- `LIMITER_LOG_LEVEL` -/
def eLimiterLogLevel : GoString := str ['L', 'I', 'M', 'I', 'T', 'E', 'R', '_', 'L', 'O', 'G', '_', 'L', 'E', 'V', 'E', 'L']
/-- `LIMITER_CA` -/
def eLimiterCa : GoString := str ['L', 'I', 'M', 'I', 'T', 'E', 'R', '_', 'C', 'A']
/-- `LIMITER_LOCKER_CLIENT_CA` -/
def eLimiterLockerClientCa : GoString := str ['L', 'I', 'M', 'I', 'T', 'E', 'R', '_', 'L', 'O', 'C', 'K', 'E', 'R', '_', 'C', 'L', 'I', 'E', 'N', 'T', '_', 'C', 'A']
/-- `WILLOW_LIMITER_CLIENT_CA` -/
def eWillowLimiterClientCa : GoString := str ['W', 'I', 'L', 'L', 'O', 'W', '_', 'L', 'I', 'M', 'I', 'T', 'E', 'R', '_', 'C', 'L', 'I', 'E', 'N', 'T', '_', 'C', 'A']

/-- A documented setting: its flag, its kind, its default, and the environment variable its usage text names. -/
structure Setting where
  name : GoString
  kind : Kind
  default : Val
  env : GoString
  deriving DecidableEq

/-- the usage texts of locker_config.go:41-49 -/
def lockerDoc : List Setting := [
  ⟨nLogLevel, .text, (.text (str ['i', 'n', 'f', 'o'])), eLockerLogLevel⟩,
  ⟨nPort, .text, (.text (str ['8', '0', '8', '3'])), eLockerPort⟩,
  ⟨nServerCa, .text, (.text []), eLockerServerCa⟩,
  ⟨nServerKey, .text, (.text []), eLockerServerKey⟩,
  ⟨nServerCrt, .text, (.text []), eLockerServerCrt⟩,
  ⟨nInsecureHttp, .bool, (.bool false), eLockerInsecureHttp⟩,
  ⟨nLockDefaultTimeout, .dur, (.dur 5000000000), eLockerLockDefaultTimeout⟩]

/-- the usage texts of limiter_config.go:43-61 -/
def limiterDoc : List Setting := [
  ⟨nLogLevel, .text, (.text (str ['i', 'n', 'f', 'o'])), eLimiterLogLevel⟩,
  ⟨nPort, .text, (.text (str ['8', '0', '8', '2'])), eLimiterPort⟩,
  ⟨nServerCa, .text, (.text []), eLimiterCa⟩,
  ⟨nServerKey, .text, (.text []), eLimiterServerKey⟩,
  ⟨nServerCrt, .text, (.text []), eLimiterServerCrt⟩,
  ⟨nLockerUrl, .text, (.text []), eLimiterLockerUrl⟩,
  ⟨nLockerClientCa, .text, (.text []), eLimiterLockerClientCa⟩,
  ⟨nLockerClientKey, .text, (.text []), eLimiterLockerClientKey⟩,
  ⟨nLockerClientCrt, .text, (.text []), eLimiterLockerClientCrt⟩,
  ⟨nInsecureHttp, .bool, (.bool false), eLimiterInsecureHttp⟩]

/-- the usage texts of willow_config.go:59-75 -/
def willowDoc : List Setting := [
  ⟨nLogLevel, .text, (.text (str ['i', 'n', 'f', 'o'])), eLogLevel⟩,
  ⟨nPort, .text, (.text (str ['8', '0', '8', '0'])), eWillowPort⟩,
  ⟨nInsecureHttp, .bool, (.bool false), eWillowInsecureHttp⟩,
  ⟨nServerCa, .text, (.text []), eWillowCa⟩,
  ⟨nServerKey, .text, (.text []), eWillowServerKey⟩,
  ⟨nServerCrt, .text, (.text []), eWillowServerCrt⟩,
  ⟨nLimiterUrl, .text, (.text []), eWillowLimiterUrl⟩,
  ⟨nLimiterClientCa, .text, (.text []), eWillowLimiterClientCa⟩,
  ⟨nLimiterClientKey, .text, (.text []), eWillowLimiterClientKey⟩,
  ⟨nLimiterClientCrt, .text, (.text []), eWillowLimiterClientCrt⟩,
  ⟨nStorageType, .text, (.text (str ['m', 'e', 'm', 'o', 'r', 'y'])), eStorageType⟩]

/-- The documented settings of a service. -/
def Service.doc : Service → List Setting
  | .locker => lockerDoc
  | .limiter => limiterDoc
  | .willow => willowDoc

/-- How a setting is written on the command line, after one or two minus signs: `name=value`, `name value` or just `name`. -/
inductive Style where
  | joined | apart | bare
  deriving DecidableEq

/-- A setting on the command line. -/
structure Given where
  double : Bool
  style : Style
  name : GoString
  value : GoString

/-- How it is written. -/
def Given.write (g : Given) : List GoString :=
  let pre : GoString := (if g.double then [45, 45] else [45]) ++ g.name
  match g.style with
  | .joined => [pre ++ 61 :: g.value]
  | .apart => [pre, g.value]
  | .bare => [pre]

/-- It is one of the documented settings; switches are written `-name` or `-name=value`, other settings with a value. -/
def Given.fits (s : List Setting) (g : Given) : Prop :=
  ∃ x ∈ s, x.name = g.name ∧ (x.kind = .bool → g.style ≠ .apart ∧ (g.style = .bare → g.value = sTrue)) ∧ (x.kind ≠ .bool → g.style ≠ .bare)

/-- A command line. -/
def writeAll (l : List Given) : List GoString := l.flatMap Given.write

/-- An argument that looks like a flag - a minus sign and more, not just two of them - and is not one of the documented settings, with or without a value. -/
def Undocumented (s : List Setting) (a : GoString) : Prop :=
  a.head? = some 45 ∧ a ≠ [45] ∧ a ≠ [45, 45] ∧
  ∀ x ∈ s, ∀ pre : GoString, pre = [45] ∨ pre = [45, 45] → a ≠ pre ++ x.name ∧ ∀ v, a ≠ pre ++ x.name ++ 61 :: v

/-- What a text means for a setting of some kind: texts are themselves, booleans as usual in Go, durations as time.ParseDuration reads them. -/
def means (pd : GoString → Option Int) : Kind → GoString → Option Val
  | .text, s => some (.text s)
  | .bool, s => (parseBool s).map .bool
  | .dur, s => (pd s).map .dur

/-- The value a user expects of a setting: that of its environment variable if it is set and not empty, otherwise that of the last flag, otherwise the default. -/
def expected (pd : GoString → Option Int) (env : GoString → GoString) (given : List Given) (x : Setting) : Option Val :=
  if env x.env ≠ [] then means pd x.kind (env x.env)
  else match given.reverse.find? (fun g => g.name == x.name) with
    | some g => means pd x.kind g.value
    | none => some x.default

/-- A configuration a service can run with. -/
structure Usable (s : Service) (cfg : List (GoString × Val)) : Prop where
  /-- the log level is debug or info -/
  level : getText cfg nLogLevel = str ['d', 'e', 'b', 'u', 'g'] ∨ getText cfg nLogLevel = str ['i', 'n', 'f', 'o']
  /-- the port is a number from 0 to 65535 -/
  port : ∃ p : Int, parseInt (getText cfg nPort) 64 = some p ∧ 0 ≤ p ∧ p ≤ 65535
  /-- with http no certificates are given, with https a key and a certificate -/
  certs : if getBool cfg nInsecureHttp then getText cfg nServerCa = [] ∧ getText cfg nServerKey = [] ∧ getText cfg nServerCrt = []
    else getText cfg nServerKey ≠ [] ∧ getText cfg nServerCrt ≠ []
  /-- the default timeout of locks is positive -/
  timeout : s = .locker → 0 < getDur cfg nLockDefaultTimeout
  /-- the storage is memory -/
  storage : s = .willow → getText cfg nStorageType = str ['m', 'e', 'm', 'o', 'r', 'y']

/-- What a user expects of a client configuration: a key and a certificate come together, a CA with both; if given they are used. -/
def ClientConfig.sound (c : ClientConfig) : Prop := c.url ≠ [] ∧ (c.key = [] ↔ c.crt = []) ∧ (c.ca ≠ [] → c.key ≠ [])

end Willow.Config
