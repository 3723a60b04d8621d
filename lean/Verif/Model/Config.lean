import Verif.Model.DataTypes
import Verif.Model.Queue
/-
The configuration of the three services: internal/config/{locker,limiter,willow}_config.go, and of their clients: pkg/clients/client_config.go.

* Go's package flag is written out as documented (FlagSet.Parse, parseOne).  A FlagSet made with ExitOnError ends the process at the first error;
  here `none`.
* time.ParseDuration is a parameter (`pd`): the nanoseconds a text stands for, if any.
* Reading and parsing certificate files is a parameter (`files`).
* A setting is a flag; the Go structs have one field per flag.  A configuration is the list of the values of all flags.
-/
namespace Willow.Config
open Willow.Queue (str)

/-! ### Names of flags and of the environment variables that are read -/

/-- internal/config: flag `log-level` -/
def nLogLevel : GoString := str ['l', 'o', 'g', '-', 'l', 'e', 'v', 'e', 'l']
/-- internal/config: flag `port` -/
def nPort : GoString := str ['p', 'o', 'r', 't']
/-- internal/config: flag `server-ca` -/
def nServerCa : GoString := str ['s', 'e', 'r', 'v', 'e', 'r', '-', 'c', 'a']
/-- internal/config: flag `server-key` -/
def nServerKey : GoString := str ['s', 'e', 'r', 'v', 'e', 'r', '-', 'k', 'e', 'y']
/-- internal/config: flag `server-crt` -/
def nServerCrt : GoString := str ['s', 'e', 'r', 'v', 'e', 'r', '-', 'c', 'r', 't']
/-- internal/config: flag `insecure-http` -/
def nInsecureHttp : GoString := str ['i', 'n', 's', 'e', 'c', 'u', 'r', 'e', '-', 'h', 't', 't', 'p']
/-- internal/config: flag `lock-default-timeout` -/
def nLockDefaultTimeout : GoString := str ['l', 'o', 'c', 'k', '-', 'd', 'e', 'f', 'a', 'u', 'l', 't', '-', 't', 'i', 'm', 'e', 'o', 'u', 't']
/-- internal/config: flag `locker-url` -/
def nLockerUrl : GoString := str ['l', 'o', 'c', 'k', 'e', 'r', '-', 'u', 'r', 'l']
/-- internal/config: flag `locker-client-ca` -/
def nLockerClientCa : GoString := str ['l', 'o', 'c', 'k', 'e', 'r', '-', 'c', 'l', 'i', 'e', 'n', 't', '-', 'c', 'a']
/-- internal/config: flag `locker-client-key` -/
def nLockerClientKey : GoString := str ['l', 'o', 'c', 'k', 'e', 'r', '-', 'c', 'l', 'i', 'e', 'n', 't', '-', 'k', 'e', 'y']
/-- internal/config: flag `locker-client-crt` -/
def nLockerClientCrt : GoString := str ['l', 'o', 'c', 'k', 'e', 'r', '-', 'c', 'l', 'i', 'e', 'n', 't', '-', 'c', 'r', 't']
/-- internal/config: flag `limiter-url` -/
def nLimiterUrl : GoString := str ['l', 'i', 'm', 'i', 't', 'e', 'r', '-', 'u', 'r', 'l']
/-- internal/config: flag `limiter-client-ca` -/
def nLimiterClientCa : GoString := str ['l', 'i', 'm', 'i', 't', 'e', 'r', '-', 'c', 'l', 'i', 'e', 'n', 't', '-', 'c', 'a']
/-- internal/config: flag `limiter-client-key` -/
def nLimiterClientKey : GoString := str ['l', 'i', 'm', 'i', 't', 'e', 'r', '-', 'c', 'l', 'i', 'e', 'n', 't', '-', 'k', 'e', 'y']
/-- internal/config: flag `limiter-client-crt` -/
def nLimiterClientCrt : GoString := str ['l', 'i', 'm', 'i', 't', 'e', 'r', '-', 'c', 'l', 'i', 'e', 'n', 't', '-', 'c', 'r', 't']
/-- internal/config: flag `storage-type` -/
def nStorageType : GoString := str ['s', 't', 'o', 'r', 'a', 'g', 'e', '-', 't', 'y', 'p', 'e']
/-- internal/config, parseEnv: `LOG_LEVEL` -/
def eLogLevel : GoString := str ['L', 'O', 'G', '_', 'L', 'E', 'V', 'E', 'L']
/-- internal/config, parseEnv: `LOCKER_LOG_LEVEL` -/
def eLockerLogLevel : GoString := str ['L', 'O', 'C', 'K', 'E', 'R', '_', 'L', 'O', 'G', '_', 'L', 'E', 'V', 'E', 'L']
/-- internal/config, parseEnv: `LOCKER_PORT` -/
def eLockerPort : GoString := str ['L', 'O', 'C', 'K', 'E', 'R', '_', 'P', 'O', 'R', 'T']
/-- internal/config, parseEnv: `LOCKER_SERVER_CA` -/
def eLockerServerCa : GoString := str ['L', 'O', 'C', 'K', 'E', 'R', '_', 'S', 'E', 'R', 'V', 'E', 'R', '_', 'C', 'A']
/-- internal/config, parseEnv: `LOCKER_SERVER_KEY` -/
def eLockerServerKey : GoString := str ['L', 'O', 'C', 'K', 'E', 'R', '_', 'S', 'E', 'R', 'V', 'E', 'R', '_', 'K', 'E', 'Y']
/-- internal/config, parseEnv: `LOCKER_SERVER_CRT` -/
def eLockerServerCrt : GoString := str ['L', 'O', 'C', 'K', 'E', 'R', '_', 'S', 'E', 'R', 'V', 'E', 'R', '_', 'C', 'R', 'T']
/-- internal/config, parseEnv: `LOCKER_INSECURE_HTTP` -/
def eLockerInsecureHttp : GoString := str ['L', 'O', 'C', 'K', 'E', 'R', '_', 'I', 'N', 'S', 'E', 'C', 'U', 'R', 'E', '_', 'H', 'T', 'T', 'P']
/-- internal/config, parseEnv: `LOCKER_LOCK_DEFAULT_TIMEOUT` -/
def eLockerLockDefaultTimeout : GoString := str ['L', 'O', 'C', 'K', 'E', 'R', '_', 'L', 'O', 'C', 'K', '_', 'D', 'E', 'F', 'A', 'U', 'L', 'T', '_', 'T', 'I', 'M', 'E', 'O', 'U', 'T']
/-- internal/config, parseEnv: `LIMITER_PORT` -/
def eLimiterPort : GoString := str ['L', 'I', 'M', 'I', 'T', 'E', 'R', '_', 'P', 'O', 'R', 'T']
/-- internal/config, parseEnv: `LIMITER_SERVER_CA` -/
def eLimiterServerCa : GoString := str ['L', 'I', 'M', 'I', 'T', 'E', 'R', '_', 'S', 'E', 'R', 'V', 'E', 'R', '_', 'C', 'A']
/-- internal/config, parseEnv: `LIMITER_SERVER_KEY` -/
def eLimiterServerKey : GoString := str ['L', 'I', 'M', 'I', 'T', 'E', 'R', '_', 'S', 'E', 'R', 'V', 'E', 'R', '_', 'K', 'E', 'Y']
/-- internal/config, parseEnv: `LIMITER_SERVER_CRT` -/
def eLimiterServerCrt : GoString := str ['L', 'I', 'M', 'I', 'T', 'E', 'R', '_', 'S', 'E', 'R', 'V', 'E', 'R', '_', 'C', 'R', 'T']
/-- internal/config, parseEnv: `LIMITER_LOCKER_URL` -/
def eLimiterLockerUrl : GoString := str ['L', 'I', 'M', 'I', 'T', 'E', 'R', '_', 'L', 'O', 'C', 'K', 'E', 'R', '_', 'U', 'R', 'L']
/-- internal/config, parseEnv: `LIMITER_LOCKER_CA` -/
def eLimiterLockerCa : GoString := str ['L', 'I', 'M', 'I', 'T', 'E', 'R', '_', 'L', 'O', 'C', 'K', 'E', 'R', '_', 'C', 'A']
/-- internal/config, parseEnv: `LIMITER_LOCKER_CLIENT_KEY` -/
def eLimiterLockerClientKey : GoString := str ['L', 'I', 'M', 'I', 'T', 'E', 'R', '_', 'L', 'O', 'C', 'K', 'E', 'R', '_', 'C', 'L', 'I', 'E', 'N', 'T', '_', 'K', 'E', 'Y']
/-- internal/config, parseEnv: `LIMITER_LOCKER_CLIENT_CRT` -/
def eLimiterLockerClientCrt : GoString := str ['L', 'I', 'M', 'I', 'T', 'E', 'R', '_', 'L', 'O', 'C', 'K', 'E', 'R', '_', 'C', 'L', 'I', 'E', 'N', 'T', '_', 'C', 'R', 'T']
/-- internal/config, parseEnv: `LIMITER_INSECURE_HTTP` -/
def eLimiterInsecureHttp : GoString := str ['L', 'I', 'M', 'I', 'T', 'E', 'R', '_', 'I', 'N', 'S', 'E', 'C', 'U', 'R', 'E', '_', 'H', 'T', 'T', 'P']
/-- internal/config, parseEnv: `WILLOW_PORT` -/
def eWillowPort : GoString := str ['W', 'I', 'L', 'L', 'O', 'W', '_', 'P', 'O', 'R', 'T']
/-- internal/config, parseEnv: `WILLOW_INSECURE_HTTP` -/
def eWillowInsecureHttp : GoString := str ['W', 'I', 'L', 'L', 'O', 'W', '_', 'I', 'N', 'S', 'E', 'C', 'U', 'R', 'E', '_', 'H', 'T', 'T', 'P']
/-- internal/config, parseEnv: `WILLOW_CA` -/
def eWillowCa : GoString := str ['W', 'I', 'L', 'L', 'O', 'W', '_', 'C', 'A']
/-- internal/config, parseEnv: `WILLOW_SERVER_KEY` -/
def eWillowServerKey : GoString := str ['W', 'I', 'L', 'L', 'O', 'W', '_', 'S', 'E', 'R', 'V', 'E', 'R', '_', 'K', 'E', 'Y']
/-- internal/config, parseEnv: `WILLOW_SERVER_CRT` -/
def eWillowServerCrt : GoString := str ['W', 'I', 'L', 'L', 'O', 'W', '_', 'S', 'E', 'R', 'V', 'E', 'R', '_', 'C', 'R', 'T']
/-- internal/config, parseEnv: `WILLOW_LIMITER_URL` -/
def eWillowLimiterUrl : GoString := str ['W', 'I', 'L', 'L', 'O', 'W', '_', 'L', 'I', 'M', 'I', 'T', 'E', 'R', '_', 'U', 'R', 'L']
/-- internal/config, parseEnv: `WILLOW_LIMITER_CA` -/
def eWillowLimiterCa : GoString := str ['W', 'I', 'L', 'L', 'O', 'W', '_', 'L', 'I', 'M', 'I', 'T', 'E', 'R', '_', 'C', 'A']
/-- internal/config, parseEnv: `WILLOW_LIMITER_CLIENT_KEY` -/
def eWillowLimiterClientKey : GoString := str ['W', 'I', 'L', 'L', 'O', 'W', '_', 'L', 'I', 'M', 'I', 'T', 'E', 'R', '_', 'C', 'L', 'I', 'E', 'N', 'T', '_', 'K', 'E', 'Y']
/-- internal/config, parseEnv: `WILLOW_LIMITER_CLIENT_CRT` -/
def eWillowLimiterClientCrt : GoString := str ['W', 'I', 'L', 'L', 'O', 'W', '_', 'L', 'I', 'M', 'I', 'T', 'E', 'R', '_', 'C', 'L', 'I', 'E', 'N', 'T', '_', 'C', 'R', 'T']
/-- internal/config, parseEnv: `STORAGE_TYPE` -/
def eStorageType : GoString := str ['S', 'T', 'O', 'R', 'A', 'G', 'E', '_', 'T', 'Y', 'P', 'E']

/-! ### Package flag -/

/-- The value of a setting: flag.String, flag.Bool, flag.Duration (in nanoseconds). -/
inductive Val where
  | text (s : GoString)
  | bool (b : Bool)
  | dur (d : Int)
  deriving DecidableEq, Repr

/-- flag.String, flag.Bool, flag.Duration. -/
inductive Kind where
  | text | bool | dur
  deriving DecidableEq, Repr

/-- strconv.ParseBool. -/
def parseBool (s : GoString) : Option Bool :=
  if s = [49] ∨ s = str ['t'] ∨ s = str ['T'] ∨ s = str ['t', 'r', 'u', 'e'] ∨ s = str ['T', 'R', 'U', 'E'] ∨ s = str ['T', 'r', 'u', 'e'] then some true
  else if s = [48] ∨ s = str ['f'] ∨ s = str ['F'] ∨ s = str ['f', 'a', 'l', 's', 'e'] ∨ s = str ['F', 'A', 'L', 'S', 'E'] ∨ s = str ['F', 'a', 'l', 's', 'e'] then some false
  else none

/-- strings.ToLower, on ASCII letters (no other letter becomes one of those of `true`). -/
def toLower (s : GoString) : GoString := s.map (fun c => if 65 ≤ c.toNat ∧ c.toNat ≤ 90 then UInt8.ofNat (c.toNat + 32) else c)

/-- `true` -/
def sTrue : GoString := str ['t', 'r', 'u', 'e']

/-- flag/flag.go stringValue.Set, boolValue.Set, durationValue.Set. -/
def set (pd : GoString → Option Int) (k : Kind) (v : GoString) : Option Val :=
  match k with
  | .text => some (.text v)
  | .bool => (parseBool v).map .bool
  | .dur => (pd v).map .dur

/-- A flag of a FlagSet (name, kind, default), the environment variable parseEnv reads for it, and the values of this variable that switch a boolean on. -/
structure Flag where
  name : GoString
  kind : Kind
  default : Val
  env : GoString
  on : GoString → Bool

/-- flag/flag.go parseOne: the name up to the first `=` that is not at its beginning, and what follows it. -/
def splitEq : GoString → GoString × Option GoString
  | [] => ([], none)
  | c :: cs => if c = 61 then ([], some cs) else match splitEq cs with | (n, v) => (c :: n, v)

/-- flag/flag.go parseOne: `name[0]` is never the `=`. -/
def splitName : GoString → GoString × Option GoString
  | [] => ([], none)
  | c :: cs => match splitEq cs with | (n, v) => (c :: n, v)

/-- What an argument is. -/
inductive Arg where
  /-- not a flag, or `--`: the rest is ignored -/
  | stop
  /-- bad flag syntax -/
  | bad
  /-- a flag, with the value after `=` if there is one -/
  | flag (name : GoString) (value : Option GoString)

/-- flag/flag.go parseOne: after the minus signs. -/
def named (n : GoString) : Arg :=
  match n with
  | [] => .bad
  | c :: _ => if c = 45 ∨ c = 61 then .bad else .flag (splitName n).1 (splitName n).2

/-- flag/flag.go parseOne: what an argument is. -/
def classify : GoString → Arg
  | 45 :: 45 :: [] => .stop
  | 45 :: 45 :: n => named n
  | 45 :: [] => .stop
  | 45 :: n => named n
  | _ => .stop

/-- flag/flag.go parseOne: find the flag. -/
def lookup (flags : List Flag) (n : GoString) : Option Flag := flags.find? (fun f => f.name == n)

/-- flag/flag.go Parse and parseOne: the assignments, in order; `none`: the process ends (ExitOnError).  `help` and `h` end it as well. -/
def parse (pd : GoString → Option Int) (flags : List Flag) : List GoString → Option (List (GoString × Val))
  | [] => some []
  | a :: args =>
    match classify a with
    | .stop => some []
    | .bad => none
    | .flag n (some v) =>
      match lookup flags n with
      | none => none
      | some f => match set pd f.kind v with
        | none => none
        | some x => (parse pd flags args).map ((n, x) :: ·)
    | .flag n none =>
      match lookup flags n with
      | none => none
      | some f =>
        if f.kind = .bool then (parse pd flags args).map ((n, .bool true) :: ·)
        else match args with
          | [] => none
          | v :: args => match set pd f.kind v with
            | none => none
            | some x => (parse pd flags args).map ((n, x) :: ·)

/-- The value of a flag after Parse: the last assignment, or its default. -/
def flagValue (f : Flag) (as : List (GoString × Val)) : Val :=
  match as.reverse.find? (fun a => a.1 == f.name) with
  | some a => a.2
  | none => f.default

/-! ### parseEnv -/

/-- parseEnv for one setting (locker_config.go:66-115, limiter_config.go:73-125, willow_config.go:98-153): a variable that is set and not empty replaces the value;
a boolean is only switched on; `none`: parseEnv returns an error. -/
def envValue (pd : GoString → Option Int) (env : GoString → GoString) (f : Flag) (v : Val) : Option Val :=
  if env f.env = [] then some v
  else match f.kind with
    | .text => some (.text (env f.env))
    | .bool => some (if f.on (env f.env) then .bool true else v)
    | .dur => (pd (env f.env)).map .dur

/-- All settings: locker_config.go:31-63, limiter_config.go:33-71, willow_config.go:50-91, without validation. -/
def settings (pd : GoString → Option Int) (env : GoString → GoString) (as : List (GoString × Val)) : List Flag → Option (List (GoString × Val))
  | [] => some []
  | f :: fs => match envValue pd env f (flagValue f as) with
    | none => none
    | some v => (settings pd env as fs).map ((f.name, v) :: ·)

/-- The value of a setting of a configuration. -/
def get (cfg : List (GoString × Val)) (n : GoString) : Option Val := (cfg.find? (fun a => a.1 == n)).map (·.2)

/-- A text setting; the field is never nil (every flag has a value). -/
def getText (cfg : List (GoString × Val)) (n : GoString) : GoString :=
  match get cfg n with
  | some (.text s) => s
  | _ => []

/-- A boolean setting. -/
def getBool (cfg : List (GoString × Val)) (n : GoString) : Bool :=
  match get cfg n with
  | some (.bool b) => b
  | _ => false

/-- A duration. -/
def getDur (cfg : List (GoString × Val)) (n : GoString) : Int :=
  match get cfg n with
  | some (.dur d) => d
  | _ => 0

/-! ### The services -/

/-- locker_config.go:93-98, willow_config.go:111-116: exactly `true` -/
def onExact (s : GoString) : Bool := s == sTrue

/-- limiter_config.go:119-124: `true` in any case -/
def onLower (s : GoString) : Bool := toLower s == sTrue

/-- locker_config.go:41-49 and 66-115 -/
def lockerFlags : List Flag := [
  ⟨nLogLevel, .text, (.text (str ['i', 'n', 'f', 'o'])), eLockerLogLevel, onExact⟩,
  ⟨nPort, .text, (.text (str ['8', '0', '8', '3'])), eLockerPort, onExact⟩,
  ⟨nServerCa, .text, (.text []), eLockerServerCa, onExact⟩,
  ⟨nServerKey, .text, (.text []), eLockerServerKey, onExact⟩,
  ⟨nServerCrt, .text, (.text []), eLockerServerCrt, onExact⟩,
  ⟨nInsecureHttp, .bool, (.bool false), eLockerInsecureHttp, onExact⟩,
  ⟨nLockDefaultTimeout, .dur, (.dur 5000000000), eLockerLockDefaultTimeout, onExact⟩]

/-- limiter_config.go:43-61 and 73-125 -/
def limiterFlags : List Flag := [
  ⟨nLogLevel, .text, (.text (str ['i', 'n', 'f', 'o'])), eLogLevel, onExact⟩,
  ⟨nPort, .text, (.text (str ['8', '0', '8', '2'])), eLimiterPort, onExact⟩,
  ⟨nServerCa, .text, (.text []), eLimiterServerCa, onExact⟩,
  ⟨nServerKey, .text, (.text []), eLimiterServerKey, onExact⟩,
  ⟨nServerCrt, .text, (.text []), eLimiterServerCrt, onExact⟩,
  ⟨nLockerUrl, .text, (.text []), eLimiterLockerUrl, onExact⟩,
  ⟨nLockerClientCa, .text, (.text []), eLimiterLockerCa, onExact⟩,
  ⟨nLockerClientKey, .text, (.text []), eLimiterLockerClientKey, onExact⟩,
  ⟨nLockerClientCrt, .text, (.text []), eLimiterLockerClientCrt, onExact⟩,
  ⟨nInsecureHttp, .bool, (.bool false), eLimiterInsecureHttp, onLower⟩]

/-- willow_config.go:59-75 and 98-153 -/
def willowFlags : List Flag := [
  ⟨nLogLevel, .text, (.text (str ['i', 'n', 'f', 'o'])), eLogLevel, onExact⟩,
  ⟨nPort, .text, (.text (str ['8', '0', '8', '0'])), eWillowPort, onExact⟩,
  ⟨nInsecureHttp, .bool, (.bool false), eWillowInsecureHttp, onExact⟩,
  ⟨nServerCa, .text, (.text []), eWillowCa, onExact⟩,
  ⟨nServerKey, .text, (.text []), eWillowServerKey, onExact⟩,
  ⟨nServerCrt, .text, (.text []), eWillowServerCrt, onExact⟩,
  ⟨nLimiterUrl, .text, (.text []), eWillowLimiterUrl, onExact⟩,
  ⟨nLimiterClientCa, .text, (.text []), eWillowLimiterCa, onExact⟩,
  ⟨nLimiterClientKey, .text, (.text []), eWillowLimiterClientKey, onExact⟩,
  ⟨nLimiterClientCrt, .text, (.text []), eWillowLimiterClientCrt, onExact⟩,
  ⟨nStorageType, .text, (.text (str ['m', 'e', 'm', 'o', 'r', 'y'])), eStorageType, onExact⟩]

/-- The three services. -/
inductive Service where
  | locker | limiter | willow
  deriving DecidableEq, Repr

/-- The flags of a service. -/
def Service.flags : Service → List Flag
  | .locker => lockerFlags
  | .limiter => limiterFlags
  | .willow => willowFlags

/-- locker_config.go:120-125, limiter_config.go:130-135, willow_config.go:157-159 -/
def logLevelOk (s : GoString) : Bool := s == str ['d', 'e', 'b', 'u', 'g'] || s == str ['i', 'n', 'f', 'o']

/-- strconv.Atoi and locker_config.go:129-134, limiter_config.go:139-144 -/
def portOk (s : GoString) : Bool :=
  match parseInt s 64 with
  | none => false
  | some p => !decide (p > 65535)

/-- locker_config.go:136-160, limiter_config.go:146-171, willow_config.go:161-183 -/
def certsOk (insecure : Bool) (ca key crt : GoString) : Bool :=
  if insecure then ca.isEmpty && crt.isEmpty && key.isEmpty else !key.isEmpty && !crt.isEmpty

/-- locker_config.go:113-164, limiter_config.go:130-179, willow_config.go:156-194 `validate`. -/
def validate (s : Service) (cfg : List (GoString × Val)) : Bool :=
  logLevelOk (getText cfg nLogLevel) &&
  certsOk (getBool cfg nInsecureHttp) (getText cfg nServerCa) (getText cfg nServerKey) (getText cfg nServerCrt) &&
  match s with
  | .locker => portOk (getText cfg nPort) && !decide (getDur cfg nLockDefaultTimeout ≤ 0)
  | .limiter => portOk (getText cfg nPort)
  | .willow => getText cfg nStorageType == str ['m', 'e', 'm', 'o', 'r', 'y']

/-- config.Locker, config.Limiter, config.Willow: locker_config.go:31-63, limiter_config.go:33-71, willow_config.go:50-91.  `none`: the process ends. -/
def load (pd : GoString → Option Int) (s : Service) (args : List GoString) (env : GoString → GoString) : Option (List (GoString × Val)) :=
  match parse pd s.flags args with
  | none => none
  | some as => match settings pd env as s.flags with
    | none => none
    | some cfg => if validate s cfg then some cfg else none

/-! ### Clients -/

/-- pkg/clients/client_config.go:11-30 -/
structure ClientConfig where
  url : GoString
  ca : GoString
  key : GoString
  crt : GoString
  deriving DecidableEq

/-- client_config.go:32-92 `Validate`; `files`: the files can be read and the certificates in them are valid. -/
def ClientConfig.validate (files : ClientConfig → Bool) (c : ClientConfig) : Bool :=
  if c.url = [] then false
  else if c.ca = [] ∧ c.crt = [] ∧ c.key = [] then true
  else if c.ca ≠ [] ∧ (c.crt = [] ∨ c.key = []) then false
  else if c.crt = [] ∨ c.key = [] then false
  else files c

/-- What the http client of a configuration does: pkg/clients/http_client.go:11-27. -/
structure Transport where
  /-- it presents the client certificate -/
  presents : Bool
  /-- it trusts only the configured CA -/
  ownCA : Bool
  deriving DecidableEq, Repr

/-- pkg/clients/http_client.go:11-27 `NewHTTPClient` -/
def newClient (files : ClientConfig → Bool) (c : ClientConfig) : Option Transport :=
  if c.validate files then some (if c.ca ≠ [] then ⟨true, true⟩ else ⟨false, false⟩) else none

/-- The client a service makes at its start: cmd/limiter/main.go:41-46, cmd/willow/main.go:44-49; the locker makes none. -/
def clientConfig (s : Service) (cfg : List (GoString × Val)) : Option ClientConfig :=
  match s with
  | .locker => none
  | .limiter => some ⟨getText cfg nLockerUrl, getText cfg nLockerClientCa, getText cfg nLockerClientKey, getText cfg nLockerClientCrt⟩
  | .willow => some ⟨getText cfg nLimiterUrl, getText cfg nLimiterClientCa, getText cfg nLimiterClientKey, getText cfg nLimiterClientCrt⟩

end Willow.Config
