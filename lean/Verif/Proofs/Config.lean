import Verif.Spec.Config
/-! The configuration of the services. -/
namespace Willow.Config
open Willow.Queue (str)

/-! ### The command line -/

theorem splitEq_none {n : GoString} (h : 61 ∉ n) : splitEq n = (n, none) := by
  induction n with
  | nil => rfl
  | cons c cs ih =>
    have hc : c ≠ 61 := fun e => h (by simp [e])
    unfold splitEq
    rw [if_neg hc, ih (fun hm => h (by simp [hm]))]

theorem splitEq_some {n v : GoString} (h : 61 ∉ n) : splitEq (n ++ 61 :: v) = (n, some v) := by
  induction n with
  | nil => simp [splitEq]
  | cons c cs ih =>
    have hc : c ≠ 61 := fun e => h (by simp [e])
    rw [List.cons_append]
    unfold splitEq
    rw [if_neg hc, ih (fun hm => h (by simp [hm]))]

/-- Names that can be flags. -/
def NameOk (n : GoString) : Prop := n ≠ [] ∧ n.head? ≠ some 45 ∧ 61 ∉ n

theorem named_none {n : GoString} (h : NameOk n) : named n = .flag n none := by
  obtain ⟨h1, h2, h3⟩ := h
  cases n with
  | nil => exact absurd rfl h1
  | cons c cs =>
    have hc : ¬ (c = 45 ∨ c = 61) := by
      rintro (rfl | rfl)
      · exact h2 rfl
      · exact h3 (by simp)
    unfold named
    simp only [if_neg hc, splitName]
    rw [splitEq_none (fun hm => h3 (by simp [hm]))]

theorem named_some {n v : GoString} (h : NameOk n) : named (n ++ 61 :: v) = .flag n (some v) := by
  obtain ⟨h1, h2, h3⟩ := h
  cases n with
  | nil => exact absurd rfl h1
  | cons c cs =>
    have hc : ¬ (c = 45 ∨ c = 61) := by
      rintro (rfl | rfl)
      · exact h2 rfl
      · exact h3 (by simp)
    rw [List.cons_append]
    unfold named
    simp only [if_neg hc, splitName]
    rw [splitEq_some (fun hm => h3 (by simp [hm]))]

theorem classify_single {n : GoString} (hne : n ≠ []) (h : n.head? ≠ some 45) : classify (45 :: n) = named n := by
  unfold classify
  split
  · rename_i e; simp at e; subst e; simp at h
  · rename_i e; simp at e; subst e; simp at h
  · rename_i e; simp at e; exact absurd e hne
  · rename_i e; simp at e; rw [e]
  · rename_i h1 h2 h3 h4; exact absurd rfl (h4 n)

theorem classify_double {n : GoString} (hne : n ≠ []) : classify (45 :: 45 :: n) = named n := by
  unfold classify
  split
  · rename_i e; simp at e; exact absurd e hne
  · rename_i e; simp at e; rw [e]
  · rename_i e; simp at e
  · rename_i h1 h2 h3 e; simp at e; exact absurd e.symm (h2 n)
  · rename_i h1 h2 h3 h4; exact absurd rfl (h4 _)

theorem classify_pre {n t : GoString} (h : NameOk n) (d : Bool) (x : GoString) (hx : x = n ++ t) : classify ((if d then [45, 45] else [45]) ++ x) = named x := by
  have hx1 : x ≠ [] := by
    rw [hx]; intro e; exact h.1 (List.append_eq_nil_iff.1 e).1
  have hx2 : x.head? ≠ some 45 := by
    rw [hx]
    have := h.1
    cases n with
    | nil => exact absurd rfl this
    | cons c cs => exact h.2.1
  cases d
  · exact classify_single hx1 hx2
  · exact classify_double hx1

theorem parse_given (pd : GoString → Option Int) {flags : List Flag} {g : Given} {f : Flag} (hf : lookup flags g.name = some f) (hn : NameOk g.name)
    (hb : f.kind = .bool → g.style ≠ .apart ∧ (g.style = .bare → g.value = sTrue)) (ht : f.kind ≠ .bool → g.style ≠ .bare) (rest : List GoString) :
    parse pd flags (g.write ++ rest) = (match set pd f.kind g.value with | none => none | some x => (parse pd flags rest).map ((g.name, x) :: ·)) := by
  obtain ⟨d, st, n, v⟩ := g
  simp only at hf hn hb ht
  cases st with
  | joined =>
    simp only [Given.write, List.cons_append, List.nil_append, List.append_assoc]
    rw [parse, classify_pre hn d (n ++ 61 :: v) rfl, named_some hn]
    simp only [hf]
    cases set pd f.kind v <;> rfl
  | apart =>
    simp only [Given.write, List.cons_append, List.nil_append]
    rw [parse, classify_pre hn d n (t := []) (by simp), named_none hn]
    have hk : f.kind ≠ .bool := fun e => (hb e).1 rfl
    simp only [hf, if_neg hk]
    cases set pd f.kind v <;> rfl
  | bare =>
    simp only [Given.write, List.cons_append, List.nil_append]
    rw [parse, classify_pre hn d n (t := []) (by simp), named_none hn]
    have hk : f.kind = .bool := Classical.byContradiction (fun e => ht e rfl)
    have hv := (hb hk).2 rfl
    simp only [hf, hv, hk]
    rfl

theorem set_means (pd : GoString → Option Int) (k : Kind) (v : GoString) : set pd k v = means pd k v := by cases k <;> rfl

/-! ### The tables -/

/-- What a name can be, as a test. -/
def nameOkB (n : GoString) : Bool := !n.isEmpty && n.head? != some 45 && !n.contains 61

theorem nameOk_of {n : GoString} (h : nameOkB n = true) : NameOk n := by
  simp only [nameOkB, Bool.and_eq_true, Bool.not_eq_true', bne_iff_ne, ne_eq] at h
  refine ⟨fun e => by rw [e] at h; simp at h, h.1.2, fun hm => ?_⟩
  rw [List.contains_iff_mem.2 hm] at h; cases h.2

/-- The flag is the documented one, up to the environment variable. -/
def pairB (fs : List Flag) (x : Setting) : Bool :=
  match lookup fs x.name with
  | none => false
  | some f => f.kind == x.kind && f.default == x.default && nameOkB x.name

theorem tables (s : Service) : s.doc.all (pairB s.flags) = true := by cases s <;> decide +kernel

theorem doc_flag {s : Service} {x : Setting} (hx : x ∈ s.doc) : ∃ f, lookup s.flags x.name = some f ∧ f.kind = x.kind ∧ f.default = x.default ∧ NameOk x.name := by
  have h := List.all_eq_true.1 (tables s) x hx
  unfold pairB at h
  split at h
  · cases h
  · rename_i f hf
    simp only [Bool.and_eq_true, beq_iff_eq] at h
    exact ⟨f, hf, h.1.1, h.1.2, nameOk_of h.2⟩

theorem lookup_name {fs : List Flag} {n : GoString} {f : Flag} (h : lookup fs n = some f) : f.name = n := by
  have := List.find?_some h; simpa using this

/-! ### What is assigned -/

/-- The kind of a flag. -/
def kindOf (fs : List Flag) (n : GoString) : Kind := match lookup fs n with | some f => f.kind | none => .text

theorem parse_all (pd : GoString → Option Int) (s : Service) : ∀ {l : List Given}, (∀ g ∈ l, g.fits s.doc) →
    parse pd s.flags (writeAll l) =
      if ∀ g ∈ l, (means pd (kindOf s.flags g.name) g.value).isSome then
        some (l.map (fun g => (g.name, (means pd (kindOf s.flags g.name) g.value).getD (.bool false)))) else none
  | [], _ => by simp [writeAll, parse]
  | g :: l, h => by
    have ih := parse_all pd s (l := l) (fun x hx => h x (by simp [hx]))
    obtain ⟨x, hx, hn, hb, ht⟩ := h g (by simp)
    obtain ⟨f, hf, hk, _, hok⟩ := doc_flag hx
    rw [hn] at hf hok
    have hg := parse_given pd (g := g) hf hok (by rw [hk]; exact hb) (by rw [hk]; exact ht) (writeAll l)
    have hko : kindOf s.flags g.name = f.kind := by unfold kindOf; rw [hf]
    have hw : writeAll (g :: l) = g.write ++ writeAll l := rfl
    rw [hw, hg, set_means, ih]
    simp only [List.mem_cons, forall_eq_or_imp, hko]
    cases hm : means pd f.kind g.value with
    | none => simp
    | some v =>
      simp only [Option.isSome_some, true_and]
      split <;> simp [hko, hm]

/-- What stands behind the name. -/
def eqPart : Option GoString → GoString
  | none => []
  | some v => 61 :: v

theorem splitEq_join : ∀ {n m : GoString} {v : Option GoString}, splitEq n = (m, v) → n = m ++ eqPart v
  | [], _, _, h => by simp only [splitEq, Prod.mk.injEq] at h; obtain ⟨rfl, rfl⟩ := h; rfl
  | c :: cs, m, v, h => by
    unfold splitEq at h
    by_cases hc : c = 61
    · rw [if_pos hc] at h
      simp only [Prod.mk.injEq] at h
      obtain ⟨rfl, rfl⟩ := h
      simp [hc, eqPart]
    · rw [if_neg hc] at h
      cases hs : splitEq cs with
      | mk m' v' =>
        rw [hs] at h
        simp only [Prod.mk.injEq] at h
        obtain ⟨rfl, rfl⟩ := h
        rw [splitEq_join hs]
        rfl

theorem splitName_join {n m : GoString} {v : Option GoString} (h : splitName n = (m, v)) : n = m ++ eqPart v := by
  cases n with
  | nil => simp only [splitName, Prod.mk.injEq] at h; obtain ⟨rfl, rfl⟩ := h; rfl
  | cons c cs =>
    simp only [splitName] at h
    cases hs : splitEq cs with
    | mk m' v' =>
      rw [hs] at h
      simp only [Prod.mk.injEq] at h
      obtain ⟨rfl, rfl⟩ := h
      rw [splitEq_join hs]
      rfl

theorem named_flag {n m : GoString} {v : Option GoString} (h : named n = .flag m v) : n = m ++ eqPart v := by
  cases n with
  | nil => cases h
  | cons c cs =>
    simp only [named] at h
    by_cases hc : c = 45 ∨ c = 61
    · rw [if_pos hc] at h; cases h
    · rw [if_neg hc] at h
      cases h
      exact splitName_join rfl

theorem named_not_stop (n : GoString) : named n ≠ .stop := by
  unfold named
  split
  · simp
  · split <;> simp

theorem lookup_documented {s : Service} {n : GoString} {f : Flag} (h : lookup s.flags n = some f) : ∃ x ∈ s.doc, x.name = n := by
  have hm := List.mem_of_find?_eq_some h
  have hall : s.flags.all (fun f => s.doc.any (fun x => x.name == f.name)) = true := by cases s <;> decide +kernel
  obtain ⟨x, hx, hh⟩ := List.any_eq_true.1 (List.all_eq_true.1 hall f hm)
  refine ⟨x, hx, ?_⟩
  rw [← lookup_name h]
  simpa using hh

theorem classify_undocumented {s : Service} {a : GoString} (h : Undocumented s.doc a) : classify a = .bad ∨ ∃ n v, classify a = .flag n v ∧ lookup s.flags n = none := by
  obtain ⟨h1, h2, h3, h4⟩ := h
  have key : ∀ (pre n : GoString), (pre = [45] ∨ pre = [45, 45]) → a = pre ++ n → classify a = named n → classify a = .bad ∨ ∃ n v, classify a = .flag n v ∧ lookup s.flags n = none := by
    intro pre n hpre ha hc
    rw [hc]
    cases hn : named n with
    | stop => exact absurd hn (named_not_stop n)
    | bad => exact .inl rfl
    | flag m v =>
      refine .inr ⟨m, v, rfl, ?_⟩
      cases hl : lookup s.flags m with
      | none => rfl
      | some f =>
        exfalso
        obtain ⟨x, hx, hxm⟩ := lookup_documented hl
        have hj := named_flag hn
        have h5 := h4 x hx pre hpre
        rw [hxm] at h5
        cases v with
        | none => exact h5.1 (by rw [ha, hj]; simp [eqPart])
        | some w => exact h5.2 w (by rw [ha, hj]; simp [eqPart])
  cases a with
  | nil => cases h1
  | cons b n =>
    simp only [List.head?_cons, Option.some.injEq] at h1
    subst h1
    cases n with
    | nil => exact absurd rfl h2
    | cons c cs =>
      by_cases hc : c = 45
      · subst hc
        have hcs : cs ≠ [] := fun e => h3 (by rw [e])
        exact key [45, 45] cs (.inr rfl) rfl (classify_double hcs)
      · exact key [45] (c :: cs) (.inl rfl) rfl (classify_single (by simp) (by simpa using hc))

theorem parse_append (pd : GoString → Option Int) (s : Service) {rest : List GoString} (hr : parse pd s.flags rest = none) : ∀ {l : List Given},
    (∀ g ∈ l, g.fits s.doc) → parse pd s.flags (writeAll l ++ rest) = none
  | [], _ => hr
  | g :: l, h => by
    have ih := parse_append pd s hr (l := l) (fun x hx => h x (by simp [hx]))
    obtain ⟨x, hx, hn, hb, ht⟩ := h g (by simp)
    obtain ⟨f, hf, hk, _, hok⟩ := doc_flag hx
    rw [hn] at hf hok
    have hg := parse_given pd (g := g) hf hok (by rw [hk]; exact hb) (by rw [hk]; exact ht) (writeAll l ++ rest)
    have hw : writeAll (g :: l) ++ rest = g.write ++ (writeAll l ++ rest) := by simp [writeAll, List.append_assoc]
    rw [hw, hg, ih]
    cases set pd f.kind g.value <;> rfl

theorem parse_undocumented (pd : GoString → Option Int) {s : Service} {a : GoString} (h : Undocumented s.doc a) (rest : List GoString) :
    parse pd s.flags (a :: rest) = none := by
  unfold parse
  rcases classify_undocumented h with hc | ⟨n, v, hc, hl⟩
  · rw [hc]
  · rw [hc]
    cases v with
    | none => simp only [hl]
    | some w => simp only [hl]

theorem flagValue_given (pd : GoString → Option Int) (fs : List Flag) (f : Flag) (l : List Given) :
    flagValue f (l.map (fun g => (g.name, (means pd (kindOf fs g.name) g.value).getD (.bool false)))) =
      match l.reverse.find? (fun g => g.name == f.name) with
      | some g => (means pd (kindOf fs g.name) g.value).getD (.bool false)
      | none => f.default := by
  unfold flagValue
  rw [← List.map_reverse, List.find?_map]
  have : ((fun a : GoString × Val => a.1 == f.name) ∘ fun g : Given => (g.name, (means pd (kindOf fs g.name) g.value).getD (.bool false))) = fun g => g.name == f.name := rfl
  rw [this]
  cases l.reverse.find? (fun g => g.name == f.name) <;> rfl

theorem settings_get {pd : GoString → Option Int} {env : GoString → GoString} {as : List (GoString × Val)} {n : GoString} {f : Flag} :
    ∀ {fs : List Flag} {cfg : List (GoString × Val)}, settings pd env as fs = some cfg → lookup fs n = some f → get cfg n = envValue pd env f (flagValue f as)
  | [], _, _, h => by simp [lookup] at h
  | g :: fs, cfg, hs, h => by
    unfold settings at hs
    split at hs
    · cases hs
    · rename_i v hv
      cases hr : settings pd env as fs with
      | none => rw [hr] at hs; cases hs
      | some c =>
        rw [hr] at hs
        simp only [Option.map_some, Option.some.injEq] at hs
        subst hs
        unfold lookup at h
        rw [List.find?_cons] at h
        unfold get
        rw [List.find?_cons]
        split at h
        · rename_i hg
          cases h
          rw [hg]; simp [hv]
        · rename_i hg
          rw [hg]
          exact settings_get hr h

theorem settings_some {pd : GoString → Option Int} {env : GoString → GoString} {as : List (GoString × Val)} :
    ∀ {fs : List Flag}, (∀ f ∈ fs, (envValue pd env f (flagValue f as)).isSome) → ∃ cfg, settings pd env as fs = some cfg
  | [], _ => ⟨[], rfl⟩
  | f :: fs, h => by
    obtain ⟨v, hv⟩ := Option.isSome_iff_exists.1 (h f (by simp))
    obtain ⟨c, hc⟩ := settings_some (fs := fs) (fun g hg => h g (by simp [hg]))
    exact ⟨(f.name, v) :: c, by unfold settings; rw [hv, hc]; rfl⟩

theorem settings_none {pd : GoString → Option Int} {env : GoString → GoString} {as : List (GoString × Val)} {f : Flag} :
    ∀ {fs : List Flag}, f ∈ fs → envValue pd env f (flagValue f as) = none → settings pd env as fs = none
  | [], h, _ => by cases h
  | g :: fs, h, hn => by
    unfold settings
    split
    · rfl
    · rename_i v hv
      rcases List.mem_cons.1 h with rfl | h
      · rw [hn] at hv; cases hv
      · rw [settings_none h hn]; rfl

/-! ### Validation -/

theorem certsOk_iff {i : Bool} {ca key crt : GoString} : certsOk i ca key crt = true ↔
    if i then ca = [] ∧ key = [] ∧ crt = [] else key ≠ [] ∧ crt ≠ [] := by
  cases i <;> simp [certsOk] <;> grind

theorem portOk_iff {s : GoString} : portOk s = true ↔ ∃ p, parseInt s 64 = some p ∧ p ≤ 65535 := by
  unfold portOk
  split
  · rename_i h; simp [h]
  · rename_i p h; simp [h]

theorem logLevelOk_iff {s : GoString} : logLevelOk s = true ↔ s = str ['d', 'e', 'b', 'u', 'g'] ∨ s = str ['i', 'n', 'f', 'o'] := by
  simp [logLevelOk]

theorem validate_of_usable {s : Service} {cfg : List (GoString × Val)} (h : Usable s cfg) : validate s cfg = true := by
  have h1 := logLevelOk_iff.2 h.level
  have h2 := certsOk_iff.2 h.certs
  obtain ⟨p, hp, _, hle⟩ := h.port
  have h3 : portOk (getText cfg nPort) = true := portOk_iff.2 ⟨p, hp, hle⟩
  unfold validate
  rw [h1, h2]
  cases s with
  | locker =>
    have := h.timeout rfl
    simp only [Bool.true_and, h3]
    simp; omega
  | limiter => simp only [Bool.true_and, h3]
  | willow => simp only [Bool.true_and, h.storage rfl, beq_self_eq_true]

end Willow.Config
