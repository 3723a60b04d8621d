import Verif.Proofs.DestroyGate
import Verif.Spec.DestroyKeys
/-
The list of keys being destroyed holds the key of every Destroy under way exactly once.
-/
namespace Willow.DestroyKeys
open DestroyGate (tot tot_append tot_set tot_le tot_le2 tot_pos)

variable {K V : Type} [DecidableEq K]

def one (k : K) (x : K) : Nat := if x = k then 1 else 0

def act : Op V → Pc V → Bool
  | .destroy, .admitted | .destroy, .worked _ => true
  | _, _ => false

def dst (k : K) (c : Call K V) : Nat := if act c.op c.pc then one k c.key else 0

theorem dst_pos {k : K} {c : Call K V} : 0 < dst k c ↔ Destroys k c := by
  obtain ⟨key, op, pc⟩ := c
  simp only [dst, one, Destroys]
  cases op <;> cases pc <;> simp [act] <;> split <;> simp_all

theorem marked_iff (keys : List K) (k : K) : marked keys k = true ↔ 0 < tot (one k) keys := by
  induction keys with
  | nil => simp [marked, tot]
  | cons a l ih =>
      simp only [marked, List.any_cons, Bool.or_eq_true, beq_iff_eq, tot, one] at *
      by_cases h : a = k
      · simp [h]; omega
      · simp only [h, false_or, if_false, Nat.zero_add]; exact ih

theorem unmark_tot (keys : List K) (k x : K) (h : 0 < tot (one k) keys) :
    tot (one x) (unmark keys k) + one x k = tot (one x) keys := by
  obtain ⟨j, a, hj, ha⟩ := tot_pos h
  have hak : a = k := by
    simp only [one] at ha; split at ha
    · assumption
    · omega
  subst hak
  simp only [unmark]
  split
  · rename_i hn
    rw [List.findIdx?_eq_none_iff] at hn
    have := hn a (List.mem_of_getElem? hj)
    simp at this
  · rename_i i hi
    rw [List.findIdx?_eq_some_iff_getElem] at hi
    obtain ⟨hlt, hia, _⟩ := hi
    simp only [beq_iff_eq] at hia
    have hi' : keys[i]? = some a := by rw [List.getElem?_eq_getElem hlt, hia]
    have hne : keys ≠ [] := by intro e; simp [e] at hj
    obtain ⟨init, l, rfl⟩ : ∃ init l, keys = init ++ [l] :=
      ⟨keys.dropLast, keys.getLast hne, (List.dropLast_concat_getLast hne).symm⟩
    simp only [List.getLast?_append, List.getLast?_singleton, Option.some_or]
    by_cases hc : i < init.length
    · rw [List.set_append_left _ _ hc, List.dropLast_concat]
      rw [List.getElem?_append_left hc] at hi'
      have := tot_set (one x) init i a l hi'
      rw [tot_append]; omega
    · have hil : i = init.length := by simp at hlt; omega
      rw [List.set_append_right _ _ (by omega)]
      have e : i - init.length = 0 := by omega
      rw [e, List.set_cons_zero, List.dropLast_concat, tot_append]
      rw [List.getElem?_append_right (by omega), e] at hi'
      simp only [List.getElem?_cons_zero, Option.some.injEq] at hi'
      rw [hi']

/-- The invariant. -/
structure I (s : W K V) : Prop where
  eq : ∀ k, tot (one k) s.keys = tot (dst k) s.calls
  le : ∀ k, tot (one k) s.keys ≤ 1

theorem I.init : I (W.init : W K V) := ⟨by simp [W.init, tot], by simp [W.init, tot]⟩

theorem one_le (k x : K) : one k x ≤ 1 := by simp only [one]; split <;> omega

theorem I.step {s s' : W K V} (hi : I s) (h : Step s s') : I s' := by
  obtain ⟨heq, hle⟩ := hi
  cases h with
  | call k op =>
      refine ⟨?_, hle⟩
      intro x
      simp only [tot_append, heq]
      cases op <;> simp [dst, act]
  | enter i c hc hp =>
      obtain ⟨key, op, pc⟩ := c
      simp only at hp; subst hp
      have hset := fun k pc' => tot_set (dst k) s.calls i _ ⟨key, op, pc'⟩ hc
      simp only [DestroyKeys.enter]
      split
      · refine ⟨?_, hle⟩
        intro k
        have := hset k (.over .destroying)
        have := heq k
        simp only [dst, act, Bool.false_eq_true, if_false] at *
        omega
      · rename_i hm
        rw [marked_iff] at hm
        cases op <;> simp only
        case destroy =>
          refine ⟨?_, ?_⟩
          · intro k
            have := hset k .admitted
            have := heq k
            simp only [dst, act, Bool.false_eq_true, if_false, if_true] at *
            rw [tot_append]; omega
          · intro k
            rw [tot_append]
            by_cases hk : key = k
            · subst hk; have := one_le key key; omega
            · have := hle k; simp only [one, hk, if_false]; omega
        all_goals
          refine ⟨?_, hle⟩
          intro k
          have := hset k .admitted
          have := heq k
          simp only [dst, act, Bool.false_eq_true, if_false] at *
          omega
  | work i c ok hc hp =>
      obtain ⟨key, op, pc⟩ := c
      simp only at hp; subst hp
      refine ⟨?_, hle⟩
      intro k
      have := tot_set (dst k) s.calls i _ ⟨key, op, .worked (DestroyKeys.work s.tree key op ok).2⟩ hc
      have := heq k
      cases op <;> simp only [dst, act, Bool.false_eq_true, if_false, if_true] at * <;> omega
  | leave i c r hc hp =>
      obtain ⟨key, op, pc⟩ := c
      simp only at hp; subst hp
      have hset := fun k => tot_set (dst k) s.calls i _ ⟨key, op, .over r⟩ hc
      cases op <;> simp only [DestroyKeys.leave]
      case destroy =>
        have hpos : 0 < tot (one key) s.keys := by
          rw [heq]
          have := tot_le (dst key) s.calls i _ hc
          simp only [dst, act, if_true, one] at this
          omega
        constructor
        · intro k
          have h1 := unmark_tot s.keys key k hpos
          have := hset k
          have := heq k
          simp only [dst, act, Bool.false_eq_true, if_false, if_true] at *
          omega
        · intro k
          have h1 := unmark_tot s.keys key k hpos
          have := hle k
          simp only
          omega
      all_goals
        refine ⟨?_, hle⟩
        intro k
        have := hset k
        have := heq k
        simp only [dst, act, Bool.false_eq_true, if_false] at *
        omega

theorem I.run {s : W K V} (h : Run W.init s) : I s := by
  generalize h0 : W.init = s0 at h
  induction h with
  | refl => subst h0; exact I.init
  | step _ h2 ih => exact ih.step h2

/-! Alone with a key -/

theorem find_filter (tree : List (K × V)) (k k' : K) (h : k' ≠ k) :
    (tree.filter (fun q => !(q.1 == k'))).find? (·.1 == k) = tree.find? (·.1 == k) := by
  induction tree with
  | nil => rfl
  | cons a l ih =>
      by_cases h1 : a.1 = k'
      · have h2 : a.1 ≠ k := by rw [h1]; exact h
        simp only [List.filter_cons, h1, beq_self_eq_true, Bool.not_true, Bool.false_eq_true, if_false, List.find?_cons]
        rw [ih]
        have : (k' == k) = false := by simpa using h
        simp [this]
      · have : (a.1 == k') = false := by simpa using h1
        simp only [List.filter_cons, this, Bool.not_false, if_true, List.find?_cons]
        rw [ih]

theorem find_filter_self (tree : List (K × V)) (k : K) :
    (tree.filter (fun q => !(q.1 == k))).find? (·.1 == k) = none := by
  rw [List.find?_eq_none]
  intro x hx
  rw [List.mem_filter] at hx
  simpa using hx.2

theorem find_append (tree : List (K × V)) (k k' : K) (v : V) (h : k' ≠ k) :
    (tree ++ [(k', v)]).find? (·.1 == k) = tree.find? (·.1 == k) := by
  rw [List.find?_append]
  have : (k' == k) = false := by simpa using h
  simp [this]

theorem work_other (tree : List (K × V)) (k k' : K) (op : Op V) (ok : Bool) (h : k' ≠ k) :
    (work tree k' op ok).1.find? (·.1 == k) = tree.find? (·.1 == k) := by
  unfold work
  split <;> first | rfl | exact find_append _ _ _ _ h | skip
  all_goals split <;> first | rfl | exact find_filter _ _ _ h

/-- The call at `i` destroys `k`, no other call on `k` is past the check, and as long as that Destroy has not done its work the pair of
`k` is the one it was, after that what the work left. -/
structure Alone (k : K) (i : Nat) (p0 : Option (K × V)) (s : W K V) : Prop where
  inv : I s
  at' : ∃ c, s.calls[i]? = some c ∧ c.key = k ∧ c.op = .destroy ∧
    (c.pc = .admitted ∧ s.tree.find? (·.1 == k) = p0 ∨
      (∃ r, c.pc = .worked r ∧ ((∀ v, r ≠ .removed v) ∧ s.tree.find? (·.1 == k) = p0 ∨
        (∃ p, p0 = some p ∧ r = .removed p.2) ∧ s.tree.find? (·.1 == k) = none)) ∨
      ∃ r, c.pc = .over r)
  others : (∃ c, s.calls[i]? = some c ∧ Destroys k c) → ∀ (j : Nat) (d : Call K V), j ≠ i → s.calls[j]? = some d → d.key = k →
    d.pc ≠ .admitted

theorem work_destroy (tree : List (K × V)) (k : K) (ok : Bool) :
    ((∀ v, (work tree k .destroy ok).2 ≠ .removed v) ∧ (work tree k .destroy ok).1.find? (·.1 == k) = tree.find? (·.1 == k)) ∨
    ((∃ p, tree.find? (·.1 == k) = some p ∧ (work tree k .destroy ok).2 = .removed p.2) ∧
      (work tree k .destroy ok).1.find? (·.1 == k) = none) := by
  cases hf : tree.find? (·.1 == k) with
  | none => left; simp [work, hf]
  | some p =>
      cases ok with
      | false => left; simp [work, hf]
      | true =>
          right
          refine ⟨⟨p, rfl, by simp [work, hf]⟩, ?_⟩
          simp only [work, hf, if_true]
          exact find_filter_self tree k

theorem Alone.step {k : K} {i : Nat} {p0 : Option (K × V)} {s s' : W K V} (ha : Alone k i p0 s) (h : Step s s') : Alone k i p0 s' := by
  have hinv := ha.inv.step h
  obtain ⟨hI, ⟨c, hc, hk, ho, hp⟩, hoth⟩ := ha
  have hmark : Destroys k c → marked s.keys k = true := by
    intro hd
    rw [marked_iff, hI.eq]
    have := tot_le (dst k) s.calls i c hc
    have := dst_pos.2 hd
    omega
  have hpcd : (∀ r, c.pc ≠ .over r) → Destroys k c := by
    intro hno
    refine ⟨hk, ho, ?_⟩
    rcases hp with ⟨h1, _⟩ | ⟨r, h1, _⟩ | ⟨r, h1⟩
    · exact Or.inl h1
    · exact Or.inr ⟨r, h1⟩
    · exact absurd h1 (hno r)
  have hlt : i < s.calls.length := by
    apply Classical.byContradiction; intro hx
    rw [List.getElem?_eq_none (by omega)] at hc; simp at hc
  cases h with
  | call k' op =>
      refine ⟨hinv, ⟨c, by simp only [List.getElem?_append_left hlt]; exact hc, hk, ho, hp⟩, ?_⟩
      rintro ⟨c', hc', hd⟩ j d hj hdj hdk
      simp only [List.getElem?_append_left hlt] at hc'
      by_cases hjl : j < s.calls.length
      · simp only [List.getElem?_append_left hjl] at hdj
        exact hoth ⟨c', hc', hd⟩ j d hj hdj hdk
      · simp only [List.getElem?_append_right (Nat.le_of_not_lt hjl)] at hdj
        cases hx : j - s.calls.length with
        | zero => simp only [hx, List.getElem?_cons_zero, Option.some.injEq] at hdj; subst hdj; simp
        | succ n => simp [hx] at hdj
  | enter j d hd hst =>
      have hji : j ≠ i := by
        intro e; subst e
        rw [hc] at hd; simp only [Option.some.injEq] at hd; subst hd
        rcases hp with ⟨h1, _⟩ | ⟨r, h1, _⟩ | ⟨r, h1⟩ <;> rw [h1] at hst <;> simp at hst
      refine ⟨hinv, ⟨c, by simp only [List.getElem?_set_ne hji]; exact hc, hk, ho, hp⟩, ?_⟩
      rintro ⟨c', hc', hdd⟩ l e hl he hek
      simp only [List.getElem?_set_ne hji] at hc'
      rw [hc] at hc'; simp only [Option.some.injEq] at hc'; subst hc'
      by_cases hlj : j = l
      · subst hlj
        have hjl : j < s.calls.length := by
          apply Classical.byContradiction; intro hx
          rw [List.getElem?_eq_none (by omega)] at hd; simp at hd
        simp only [List.getElem?_set_self hjl, Option.some.injEq] at he
        subst he
        simp only at hek
        simp [DestroyKeys.enter, hek, hmark hdd]
      · simp only [List.getElem?_set_ne hlj] at he
        exact hoth ⟨c, hc, hdd⟩ l e hl he hek
  | work j d ok hd hst =>
      by_cases hji : j = i
      · subst hji
        rw [hc] at hd; simp only [Option.some.injEq] at hd; subst hd
        have hp' : s.tree.find? (·.1 == k) = p0 := by
          rcases hp with ⟨_, h2⟩ | ⟨r, h1, _⟩ | ⟨r, h1⟩
          · exact h2
          · rw [h1] at hst; simp at hst
          · rw [h1] at hst; simp at hst
        refine ⟨hinv, ⟨{ c with pc := .worked (DestroyKeys.work s.tree c.key c.op ok).2 }, List.getElem?_set_self hlt, hk, ho,
            Or.inr (Or.inl ⟨_, rfl, ?_⟩)⟩, ?_⟩
        · simp only [hk, ho]
          rw [← hp']
          exact work_destroy s.tree k ok
        · rintro _ l e hl he hek
          simp only [List.getElem?_set_ne (Ne.symm hl)] at he
          exact hoth ⟨c, hc, hk, ho, Or.inl hst⟩ l e hl he hek
      · have hkeep : (¬ ∃ r, c.pc = .over r) → (work s.tree d.key d.op ok).1.find? (·.1 == k) = s.tree.find? (·.1 == k) := by
          intro hno
          have hdd := hpcd (fun r hr => hno ⟨r, hr⟩)
          apply work_other
          intro hdk
          exact hoth ⟨c, hc, hdd⟩ j d hji hd hdk hst
        refine ⟨hinv, ⟨c, by simp only [List.getElem?_set_ne hji]; exact hc, hk, ho, ?_⟩, ?_⟩
        · rcases hp with ⟨h1, h2⟩ | ⟨r, h1, h2⟩ | h1
          · left; exact ⟨h1, by simp only; rw [hkeep (by simp [h1])]; exact h2⟩
          · right; left; exact ⟨r, h1, by simp only; rw [hkeep (by simp [h1])]; exact h2⟩
          · right; right; exact h1
        · rintro ⟨c', hc', hdd⟩ l e hl he hek
          simp only [List.getElem?_set_ne hji] at hc'
          rw [hc] at hc'; simp only [Option.some.injEq] at hc'; subst hc'
          by_cases hlj : j = l
          · subst hlj
            have hjl : j < s.calls.length := by
              apply Classical.byContradiction; intro hx
              rw [List.getElem?_eq_none (by omega)] at hd; simp at hd
            simp only [List.getElem?_set_self hjl, Option.some.injEq] at he
            subst he; simp
          · simp only [List.getElem?_set_ne hlj] at he
            exact hoth ⟨c, hc, hdd⟩ l e hl he hek
  | leave j d r hd hst =>
      by_cases hji : j = i
      · subst hji
        refine ⟨hinv, ?_, ?_⟩
        · rw [hc] at hd; simp only [Option.some.injEq] at hd; subst hd
          exact ⟨{ c with pc := .over r }, List.getElem?_set_self hlt, hk, ho, Or.inr (Or.inr ⟨r, rfl⟩)⟩
        · rintro ⟨c', hc', _, _, hdd⟩
          simp only [List.getElem?_set_self hlt, Option.some.injEq] at hc'
          subst hc'
          simp at hdd
      · refine ⟨hinv, ⟨c, by simp only [List.getElem?_set_ne hji]; exact hc, hk, ho, hp⟩, ?_⟩
        rintro ⟨c', hc', hdd⟩ l e hl he hek
        simp only [List.getElem?_set_ne hji] at hc'
        by_cases hlj : j = l
        · subst hlj
          have hjl : j < s.calls.length := by
            apply Classical.byContradiction; intro hx
            rw [List.getElem?_eq_none (by omega)] at hd; simp at hd
          simp only [List.getElem?_set_self hjl, Option.some.injEq] at he
          subst he; simp
        · simp only [List.getElem?_set_ne hlj] at he
          exact hoth ⟨c', hc', hdd⟩ l e hl he hek

theorem Alone.run {k : K} {i : Nat} {p0 : Option (K × V)} {s s' : W K V} (ha : Alone k i p0 s) (h : Run s s') : Alone k i p0 s' := by
  induction h with
  | refl => exact ha
  | step _ h2 ih => exact ih.step h2

/-! Concrete runs -/

section
variable {K V : Type} [BEq K]

inductive L (K V : Type) where
  | call (k : K) (op : Op V)
  | enter (i : Nat)
  | work (i : Nat) (ok : Bool)
  | leave (i : Nat)

def next (s : W K V) : L K V → Option (W K V)
  | .call k op => some { s with calls := s.calls ++ [⟨k, op, .start⟩] }
  | .enter i =>
      match s.calls[i]? with
      | some ⟨k, op, .start⟩ =>
          some { s with keys := (DestroyKeys.enter s.keys ⟨k, op, .start⟩).1,
                        calls := s.calls.set i ⟨k, op, (DestroyKeys.enter s.keys ⟨k, op, .start⟩).2⟩ }
      | _ => none
  | .work i ok =>
      match s.calls[i]? with
      | some ⟨k, op, .admitted⟩ =>
          some { s with tree := (DestroyKeys.work s.tree k op ok).1,
                        calls := s.calls.set i ⟨k, op, .worked (DestroyKeys.work s.tree k op ok).2⟩ }
      | _ => none
  | .leave i =>
      match s.calls[i]? with
      | some ⟨k, op, .worked r⟩ =>
          some { s with keys := DestroyKeys.leave s.keys ⟨k, op, .worked r⟩, calls := s.calls.set i ⟨k, op, .over r⟩ }
      | _ => none

theorem next_step {s s' : W K V} {l : L K V} (h : next s l = some s') : Step s s' := by
  cases l with
  | call k op => simp only [next, Option.some.injEq] at h; subst h; exact .call s k op
  | enter i =>
      simp only [next] at h
      split at h
      · simp only [Option.some.injEq] at h; subst h; exact .enter s i _ (by assumption) rfl
      · simp at h
  | work i ok =>
      simp only [next] at h
      split at h
      · simp only [Option.some.injEq] at h; subst h; exact .work s i _ ok (by assumption) rfl
      · simp at h
  | leave i =>
      simp only [next] at h
      split at h
      · simp only [Option.some.injEq] at h; subst h; exact .leave s i _ _ (by assumption) rfl
      · simp at h

def exec (s : W K V) : List (L K V) → Option (W K V)
  | [] => some s
  | l :: ls =>
      match next s l with
      | none => none
      | some s' => exec s' ls

theorem Run.trans {a b c : W K V} (h1 : Run a b) (h2 : Run b c) : Run a c := by
  induction h2 with
  | refl => exact h1
  | step _ hs ih => exact .step ih hs

theorem exec_run : ∀ (ls : List (L K V)) {s s' : W K V}, exec s ls = some s' → Run s s'
  | [], s, s', h => by simp only [exec, Option.some.injEq] at h; subst h; exact .refl s
  | l :: ls, s, s', h => by
      simp only [exec] at h
      split at h
      · simp at h
      · rename_i s1 hs
        exact Run.trans (.step (.refl s) (next_step hs)) (exec_run ls h)
end

end Willow.DestroyKeys
