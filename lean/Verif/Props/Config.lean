import Verif.Proofs.Config
/-
Property C85: settings of the services and of their clients.

`load pd s args env`: the configuration service `s` starts with, `none` if it does not start; `pd` is time.ParseDuration.
`Service.doc`, `expected`, `Usable`, `ClientConfig.sound` (Spec/Config) say what the usage texts promise.
-/
namespace Willow.Props
open Willow.Config
open Willow.Queue (str)

/-- The settings whose documented environment variable is not the one that is read. -/
def misread : Service → List GoString
  | .locker => []
  | .limiter => [nLogLevel, nServerCa, nLockerClientCa]
  | .willow => [nLimiterClientCa]

/-- All others are read from the documented one. -/
def readAsDocumented (s : Service) (x : Setting) : Bool :=
  (misread s).contains x.name || match lookup s.flags x.name with | some f => f.env == x.env && (x.kind != .bool || f.on sTrue) | none => false

theorem readAsDocumented_all (s : Service) : s.doc.all (readAsDocumented s) = true := by cases s <;> decide +kernel

theorem doc_env {s : Service} {x : Setting} (hx : x ∈ s.doc) (hm : x.name ∉ misread s) {f : Flag} (hf : lookup s.flags x.name = some f) :
    f.env = x.env ∧ (x.kind = .bool → f.on sTrue = true) := by
  have h := List.all_eq_true.1 (readAsDocumented_all s) x hx
  unfold readAsDocumented at h
  rw [hf] at h
  simp only [Bool.or_eq_true, Bool.and_eq_true, beq_iff_eq] at h
  rcases h with h | ⟨h1, h2⟩
  · exact absurd (List.contains_iff_mem.1 h) hm
  · refine ⟨h1, fun hk => ?_⟩
    rcases h2 with h2 | h2
    · rw [hk] at h2; simp at h2
    · exact h2

theorem flags_documented (s : Service) : s.flags.all (fun f => (s.doc.any (fun x => x.name == f.name)) && match lookup s.flags f.name with | some g => g.env == f.env && g.kind == f.kind | none => false) = true := by
  cases s <;> decide +kernel

theorem durations_documented (s : Service) : s.flags.all (fun f => f.kind != .dur || (s.doc.any (fun x => x.name == f.name && x.env == f.env && x.kind == .dur))) = true := by
  cases s <;> decide +kernel

/-- C85 as far as it holds.  Whatever settings are given on the command line (any number, in any order and style, repeated or not), with values that can be
read, and whatever the environment: there is one configuration in which every setting has its expected value - except those of `misread`, and except
switches whose environment variable is neither empty nor `true` - and the service starts with this configuration, or it does not start; it starts if the
configuration is usable. -/
theorem C85_settings_partial (pd : GoString → Option Int) (s : Service) {given : List Given} (hg : ∀ g ∈ given, g.fits s.doc)
    (hval : ∀ g ∈ given, ∀ x ∈ s.doc, x.name = g.name → (means pd x.kind g.value).isSome) (env : GoString → GoString)
    (henv : ∀ x ∈ s.doc, x.kind = .dur → env x.env ≠ [] → (pd (env x.env)).isSome) :
    ∃ cfg, (∀ x ∈ s.doc, x.name ∉ misread s → (x.kind = .bool → env x.env = [] ∨ env x.env = sTrue) → get cfg x.name = expected pd env given x) ∧
      (load pd s (writeAll given) env = some cfg ∨ load pd s (writeAll given) env = none) ∧
      (Usable s cfg → load pd s (writeAll given) env = some cfg) := by
  have hkind : ∀ g ∈ given, (means pd (kindOf s.flags g.name) g.value).isSome := by
    intro g hgm
    obtain ⟨x, hx, hn, _⟩ := hg g hgm
    obtain ⟨f, hf, hk, _⟩ := doc_flag hx
    have := hval g hgm x hx hn
    rw [hn] at hf
    unfold kindOf; rw [hf]; simp only; rw [hk]; exact this
  have hp := parse_all pd s hg
  rw [if_pos hkind] at hp
  have hfl : ∀ x ∈ s.doc, ∀ f, lookup s.flags x.name = some f →
      flagValue f (given.map (fun g => (g.name, (means pd (kindOf s.flags g.name) g.value).getD (.bool false)))) =
        match given.reverse.find? (fun g => g.name == x.name) with
        | some g => (means pd x.kind g.value).getD (.bool false)
        | none => x.default := by
    intro x hx f hf
    obtain ⟨f', hf', hk, hd, _⟩ := doc_flag hx
    rw [hf] at hf'; cases hf'
    rw [flagValue_given, lookup_name hf]
    cases hfi : given.reverse.find? (fun g => g.name == x.name) with
    | none => exact hd
    | some g =>
      simp only
      have hgn : g.name = x.name := by simpa using List.find?_some hfi
      have : kindOf s.flags g.name = x.kind := by unfold kindOf; rw [hgn, hf]; exact hk
      rw [this]
  obtain ⟨cfg, hcfg⟩ := settings_some (pd := pd) (env := env)
      (as := given.map (fun g => (g.name, (means pd (kindOf s.flags g.name) g.value).getD (.bool false)))) (fs := s.flags) (by
    intro f hf
    unfold envValue
    split
    · rfl
    · rename_i hne
      cases hk : f.kind with
      | text => rfl
      | bool => rfl
      | dur =>
        simp only
        have h := List.all_eq_true.1 (durations_documented s) f hf
        rw [hk] at h
        simp only [bne_self_eq_false, Bool.false_or] at h
        obtain ⟨x, hx, hh⟩ := List.any_eq_true.1 h
        simp only [Bool.and_eq_true, beq_iff_eq] at hh
        rw [← hh.1.2] at hne ⊢
        have := henv x hx hh.2 hne
        cases hp : pd (env x.env) with
        | none => rw [hp] at this; cases this
        | some v => rfl)
  have hload : load pd s (writeAll given) env = if validate s cfg then some cfg else none := by
    unfold load; rw [hp]; simp only; rw [hcfg]
  refine ⟨cfg, ?_, ?_, ?_⟩
  · intro x hx hm hb
    obtain ⟨f, hf, hk, hd, _⟩ := doc_flag hx
    obtain ⟨he, hon⟩ := doc_env hx hm hf
    rw [settings_get hcfg hf, hfl x hx f hf]
    unfold envValue expected
    rw [he, hk]
    by_cases hem : env x.env = []
    · rw [if_pos hem, if_neg (by simp [hem])]
      cases hfi : given.reverse.find? (fun g => g.name == x.name) with
      | none => rfl
      | some g =>
        have hgm : g ∈ given := List.mem_reverse.1 (List.mem_of_find?_eq_some hfi)
        have hgn : x.name = g.name := by have := List.find?_some hfi; simp at this; exact this.symm
        have := hval g hgm x hx hgn
        simp only
        cases hme : means pd x.kind g.value with
        | none => rw [hme] at this; cases this
        | some v => rfl
    · rw [if_neg hem, if_pos hem]
      cases hkx : x.kind with
      | text => rfl
      | dur => rfl
      | bool =>
        have ht := (hb hkx).resolve_left hem
        simp only [means]
        rw [ht, hon hkx, if_pos rfl]
        rfl
  · rw [hload]
    cases validate s cfg
    · exact .inr rfl
    · exact .inl rfl
  · intro hu
    rw [hload, validate_of_usable hu, if_pos rfl]

/-- C85.  A flag whose value cannot be read ends the process. -/
theorem C85_bad_value_refused (pd : GoString → Option Int) (s : Service) {given : List Given} (hg : ∀ g ∈ given, g.fits s.doc) (env : GoString → GoString)
    {g : Given} (hm : g ∈ given) {x : Setting} (hx : x ∈ s.doc) (hn : x.name = g.name) (hbad : means pd x.kind g.value = none) :
    load pd s (writeAll given) env = none := by
  have hp := parse_all pd s hg
  rw [if_neg] at hp
  · unfold load; rw [hp]
  · intro h
    have := h g hm
    obtain ⟨f, hf, hk, _⟩ := doc_flag hx
    rw [hn] at hf
    unfold kindOf at this
    rw [hf] at this
    simp only at this
    rw [hk, hbad] at this
    cases this

/-- C85.  So does anything that looks like a flag and is not documented, wherever it stands among the flags. -/
theorem C85_unknown_flag_refused (pd : GoString → Option Int) (s : Service) {given : List Given} (hg : ∀ g ∈ given, g.fits s.doc) {a : GoString}
    (ha : Undocumented s.doc a) (rest : List GoString) (env : GoString → GoString) : load pd s (writeAll given ++ a :: rest) env = none := by
  unfold load
  rw [parse_append pd s (parse_undocumented pd ha rest) hg]

/-- Non-vacuity: `---`, `-=` and `-limiter-url=x` are not flags of the locker. -/
example : Undocumented Service.locker.doc [45, 45, 45] ∧ Undocumented Service.locker.doc [45, 61] ∧ Undocumented Service.locker.doc (45 :: nLimiterUrl ++ [61, 120]) := by
  refine ⟨⟨rfl, by decide, by decide, ?_⟩, ⟨rfl, by decide, by decide, ?_⟩, ⟨rfl, by decide, by decide, ?_⟩⟩ <;>
  · intro x hx pre hp
    simp only [Service.doc, lockerDoc, List.mem_cons, List.not_mem_nil, or_false] at hx
    rcases hp with rfl | rfl <;> rcases hx with rfl | rfl | rfl | rfl | rfl | rfl | rfl <;>
      exact ⟨by decide, fun v h => by simp [nLogLevel, nPort, nServerCa, nServerKey, nServerCrt, nInsecureHttp, nLockDefaultTimeout, nLimiterUrl, str] at h⟩

/-- C85.  So does a default timeout in the environment that cannot be read. -/
theorem C85_bad_timeout_refused (pd : GoString → Option Int) (args : List GoString) (env : GoString → GoString) (hne : env eLockerLockDefaultTimeout ≠ [])
    (hbad : pd (env eLockerLockDefaultTimeout) = none) : load pd .locker args env = none := by
  unfold load
  split
  · rfl
  · rename_i as _
    have hset : settings pd env as Service.locker.flags = none := by
      refine settings_none (f := ⟨nLockDefaultTimeout, .dur, .dur 5000000000, eLockerLockDefaultTimeout, onExact⟩) ?_ ?_
      · simp [Service.flags, lockerFlags]
      · unfold envValue
        simp only [if_neg hne, hbad, Option.map_none]
    rw [hset]

/-- C85.  What a service that starts has checked, whatever its arguments and environment: the log level, that certificates fit to http or https; the locker and
the limiter, that the port is a number up to 65535; the locker, that the default timeout is positive; willow, the storage. -/
theorem C85_checked_partial {pd : GoString → Option Int} {s : Service} {args : List GoString} {env : GoString → GoString} {cfg : List (GoString × Val)}
    (h : load pd s args env = some cfg) :
    (getText cfg nLogLevel = str ['d', 'e', 'b', 'u', 'g'] ∨ getText cfg nLogLevel = str ['i', 'n', 'f', 'o']) ∧
    (if getBool cfg nInsecureHttp then getText cfg nServerCa = [] ∧ getText cfg nServerKey = [] ∧ getText cfg nServerCrt = []
      else getText cfg nServerKey ≠ [] ∧ getText cfg nServerCrt ≠ []) ∧
    (s ≠ .willow → ∃ p : Int, parseInt (getText cfg nPort) 64 = some p ∧ p ≤ 65535) ∧
    (s = .locker → 0 < getDur cfg nLockDefaultTimeout) ∧ (s = .willow → getText cfg nStorageType = str ['m', 'e', 'm', 'o', 'r', 'y']) := by
  unfold load at h
  split at h
  · cases h
  · split at h
    · cases h
    · split at h
      · rename_i hv
        cases h
        unfold validate at hv
        rw [Bool.and_eq_true, Bool.and_eq_true] at hv
        refine ⟨logLevelOk_iff.1 hv.1.1, certsOk_iff.1 hv.1.2, ?_, ?_, ?_⟩
        · intro hs
          cases s with
          | locker => have := hv.2; simp only [Bool.and_eq_true] at this; exact portOk_iff.1 this.1
          | limiter => exact portOk_iff.1 hv.2
          | willow => exact absurd rfl hs
        · rintro rfl
          have := hv.2
          simp only [Bool.and_eq_true, Bool.not_eq_true', decide_eq_false_iff_not] at this
          omega
        · rintro rfl
          have := hv.2
          simpa using this
      · cases h

/-! ### Examples -/

/-- No durations are needed. -/
def noPd : GoString → Option Int := fun _ => none

/-- An environment with one variable. -/
def env1 (n v : GoString) : GoString → GoString := fun x => if x = n then v else []

/-- `-insecure-http -port 9000 --log-level=debug -port=9001` -/
def exGiven : List Given :=
  [⟨false, .bare, nInsecureHttp, sTrue⟩, ⟨false, .apart, nPort, str ['9', '0', '0', '0']⟩, ⟨true, .joined, nLogLevel, str ['d', 'e', 'b', 'u', 'g']⟩,
    ⟨false, .joined, nPort, str ['9', '0', '0', '1']⟩]

/-- Non-vacuity of C85_settings_partial: the limiter starts with these arguments and LIMITER_PORT=7000, with the expected values. -/
example : (∀ g ∈ exGiven, g.fits Service.limiter.doc) ∧
    (∀ g ∈ exGiven, ∀ x ∈ Service.limiter.doc, x.name = g.name → (means noPd x.kind g.value).isSome) ∧
    (load noPd .limiter (writeAll exGiven) (env1 eLimiterPort (str ['7']))).map (fun c => (getText c nPort, getText c nLogLevel, getBool c nInsecureHttp, getText c nServerCa)) =
      some (str ['7'], str ['d', 'e', 'b', 'u', 'g'], true, []) ∧
    (load noPd .limiter (writeAll exGiven) (fun _ => [])).map (fun c => getText c nPort) = some (str ['9', '0', '0', '1']) := by
  refine ⟨?_, by decide +kernel, by decide +kernel, by decide +kernel⟩
  intro g hg
  simp only [exGiven, List.mem_cons, List.not_mem_nil, or_false] at hg
  rcases hg with rfl | rfl | rfl | rfl
  · exact ⟨⟨nInsecureHttp, .bool, .bool false, eLimiterInsecureHttp⟩, by simp [Service.doc, limiterDoc], rfl, by simp, by simp⟩
  · exact ⟨⟨nPort, .text, .text (str ['8', '0', '8', '2']), eLimiterPort⟩, by simp [Service.doc, limiterDoc], rfl, by simp, by simp⟩
  · exact ⟨⟨nLogLevel, .text, .text (str ['i', 'n', 'f', 'o']), eLimiterLogLevel⟩, by simp [Service.doc, limiterDoc], rfl, by simp, by simp⟩
  · exact ⟨⟨nPort, .text, .text (str ['8', '0', '8', '2']), eLimiterPort⟩, by simp [Service.doc, limiterDoc], rfl, by simp, by simp⟩

/-- Non-vacuity of the refusals: an unreadable default timeout, as a flag and in the environment. -/
example : load noPd .locker [45 :: nInsecureHttp, 45 :: nLockDefaultTimeout, str ['x']] (fun _ => []) = none ∧
    load noPd .locker [45 :: nInsecureHttp] (env1 eLockerLockDefaultTimeout (str ['x'])) = none ∧
    (load noPd .locker [45 :: nInsecureHttp] (fun _ => [])).isSome = true := by decide +kernel

/-! ### Where the usage texts are wrong -/

/-- C85 is false: documented environment variables that are not read.  Whatever LIMITER_LOG_LEVEL is set to, the limiter logs at level info; with LIMITER_CA no CA is
loaded. -/
theorem C85_violated_documented_variable : (∃ x ∈ Service.limiter.doc, x.name = nLogLevel ∧ x.env = eLimiterLogLevel) ∧
    (∃ x ∈ Service.limiter.doc, x.name = nServerCa ∧ x.env = eLimiterCa) ∧ (∃ x ∈ Service.willow.doc, x.name = nLimiterClientCa ∧ x.env = eWillowLimiterClientCa) ∧
    (∀ v, (load noPd .limiter [45 :: nInsecureHttp] (env1 eLimiterLogLevel v)).map (fun c => getText c nLogLevel) = some (str ['i', 'n', 'f', 'o'])) ∧
    (∀ v, (load noPd .limiter [45 :: nServerKey ++ [61, 107], 45 :: nServerCrt ++ [61, 99]] (env1 eLimiterCa v)).map (fun c => getText c nServerCa) = some []) ∧
    (∀ v, (load noPd .willow [45 :: nInsecureHttp] (env1 eWillowLimiterClientCa v)).map (fun c => getText c nLimiterClientCa) = some []) := by
  refine ⟨⟨⟨nLogLevel, .text, .text (str ['i', 'n', 'f', 'o']), eLimiterLogLevel⟩, by simp [Service.doc, limiterDoc], rfl, rfl⟩,
    ⟨⟨nServerCa, .text, .text [], eLimiterCa⟩, by simp [Service.doc, limiterDoc], rfl, rfl⟩,
    ⟨⟨nLimiterClientCa, .text, .text [], eWillowLimiterClientCa⟩, by simp [Service.doc, willowDoc], rfl, rfl⟩, ?_, ?_, ?_⟩
  all_goals
    intro v
    have hs : ∀ (s : Service) (args : List GoString) (n : GoString), (∀ f ∈ s.flags, f.env ≠ n) → load noPd s args (env1 n v) = load noPd s args (fun _ => []) := by
      intro s args n hn
      have he : ∀ (as : List (GoString × Val)) (fs : List Flag), (∀ f ∈ fs, f.env ≠ n) → settings noPd (env1 n v) as fs = settings noPd (fun _ => []) as fs := by
        intro as fs
        induction fs with
        | nil => intro _; rfl
        | cons f fs ih =>
          intro hf
          have h1 : env1 n v f.env = [] := by unfold env1; rw [if_neg (hf f (by simp))]
          unfold settings
          rw [ih (fun g hg => hf g (by simp [hg]))]
          unfold envValue
          rw [h1]
      unfold load
      split
      · rfl
      · rw [he _ _ hn]
    rw [hs _ _ _ (by decide +kernel)]
    decide +kernel

/-- C85 is false: a switch cannot be switched off by its variable, and the locker and willow do not know TRUE or 1. -/
theorem C85_violated_switch : (load noPd .limiter [45 :: nInsecureHttp] (env1 eLimiterInsecureHttp (str ['f', 'a', 'l', 's', 'e']))).map (fun c => getBool c nInsecureHttp) = some true ∧
    load noPd .locker [] (env1 eLockerInsecureHttp (str ['T', 'R', 'U', 'E'])) = none ∧ load noPd .willow [] (env1 eWillowInsecureHttp [49]) = none ∧
    (load noPd .locker [] (env1 eLockerInsecureHttp sTrue)).isSome = true ∧ (load noPd .willow [] (env1 eWillowInsecureHttp sTrue)).isSome = true := by decide +kernel

/-- C85 is false: services start with ports that do not exist - negative ones, and willow with any text at all. -/
theorem C85_violated_port : (load noPd .locker [45 :: nInsecureHttp, 45 :: nPort, str ['-', '1']] (fun _ => [])).map (fun c => getText c nPort) = some (str ['-', '1']) ∧
    (load noPd .limiter [45 :: nInsecureHttp, 45 :: nPort, str ['-', '1']] (fun _ => [])).map (fun c => getText c nPort) = some (str ['-', '1']) ∧
    ∀ p, (load noPd .willow [45 :: nInsecureHttp, 45 :: nPort, p] (fun _ => [])).map (fun c => getText c nPort) = some p := by
  refine ⟨by decide +kernel, by decide +kernel, ?_⟩
  intro p
  rfl

/-! ### Clients -/

/-- C85: the client a service makes is refused exactly if its configuration is not sound or its files are not. -/
theorem C85_client_iff (files : ClientConfig → Bool) (c : ClientConfig) :
    (newClient files c).isSome = true ↔ c.sound ∧ ((c.key ≠ [] ∨ c.ca ≠ []) → files c = true) := by
  obtain ⟨url, ca, key, crt⟩ := c
  unfold newClient ClientConfig.validate ClientConfig.sound
  simp only
  by_cases h1 : url = []
  · simp [h1]
  · by_cases h2 : ca = [] <;> by_cases h3 : key = [] <;> by_cases h4 : crt = [] <;> simp [h1, h2, h3, h4]

/-- C85 as far as it holds for clients: with a CA, the certificate is presented and only the CA is trusted. -/
theorem C85_client_certificate_partial {files : ClientConfig → Bool} {c : ClientConfig} {t : Transport} (h : newClient files c = some t) (hca : c.ca ≠ []) :
    t.presents = true ∧ t.ownCA = true := by
  unfold newClient at h
  by_cases hv : c.validate files = true
  · rw [if_pos hv, if_pos hca] at h; cases h; exact ⟨rfl, rfl⟩
  · rw [if_neg hv] at h; cases h

/-- C85 is false: without a CA ("optional" according to the code and accepted) the configured key and certificate are never used - for every such configuration. -/
theorem C85_violated_client_certificate {files : ClientConfig → Bool} {c : ClientConfig} (hu : c.url ≠ []) (hca : c.ca = []) (hk : c.key ≠ []) (hc : c.crt ≠ [])
    (hf : files c = true) : newClient files c = some ⟨false, false⟩ := by
  unfold newClient ClientConfig.validate
  simp [hu, hca, hk, hc, hf]

/-- Non-vacuity: such a configuration, from the flags of willow, and one with a CA. -/
example : ((load noPd .willow [45 :: nInsecureHttp, 45 :: nLimiterUrl, [104], 45 :: nLimiterClientKey, [107], 45 :: nLimiterClientCrt, [99]] (fun _ => [])).bind (clientConfig .willow)).map
      (fun c => (c, newClient (fun _ => true) c)) = some (⟨[104], [], [107], [99]⟩, some ⟨false, false⟩) ∧
    newClient (fun _ => true) ⟨[104], [97], [107], [99]⟩ = some ⟨true, true⟩ := by decide +kernel

end Willow.Props
