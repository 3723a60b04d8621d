import Verif.Model.JsonString
import Verif.Spec.Utf8
/-! String literals of encoding/json: what comes back, and when it is the same text. -/
namespace Willow
open Spec

theorem utf8Len_le (s : GoString) : utf8Len s ≤ s.length := by
  unfold utf8Len
  repeat' split
  all_goals simp

/-- The length of the first sequence depends on that sequence only. -/
theorem utf8Len_take {s : GoString} (h : utf8Len s ≠ 0) (t : GoString) : utf8Len (s.take (utf8Len s) ++ t) = utf8Len s := by
  match s with
  | [] => simp [utf8Len] at h
  | [a] =>
    have e : utf8Len [a] = if a.toNat < 128 then 1 else 0 := by
      simp only [utf8Len]; repeat' split
      all_goals first | rfl | omega
    rw [e] at h ⊢
    split at h
    · rename_i ha; simp [utf8Len, ha]
    · simp at h
  | [a, b] =>
    by_cases h1 : a.toNat < 128
    · simp [utf8Len, h1]
    · by_cases h2 : 194 ≤ a.toNat ∧ a.toNat ≤ 223
      · by_cases hb : utf8Cont b = true
        · simp [utf8Len, h1, h2, hb]
        · simp [utf8Len, h1, h2, hb] at h
      · simp [utf8Len, h1, h2] at h
  | [a, b, c] =>
    by_cases h1 : a.toNat < 128
    · simp [utf8Len, h1]
    · by_cases h2 : 194 ≤ a.toNat ∧ a.toNat ≤ 223
      · by_cases hb : utf8Cont b = true
        · simp [utf8Len, h1, h2, hb]
        · simp [utf8Len, h1, h2, hb] at h
      · by_cases h3 : 224 ≤ a.toNat ∧ a.toNat ≤ 239
        · by_cases hb : (utf8Cont b && utf8Cont c && decide (a.toNat = 224 → 160 ≤ b.toNat) && decide (a.toNat = 237 → b.toNat ≤ 159)) = true
          · simp only [utf8Len, h1, h2, h3, hb, if_true, if_false, and_self, List.take_succ_cons, List.take_zero, List.cons_append, List.nil_append]
          · simp only [utf8Len, h1, h2, h3, hb, if_true, if_false, and_self] at h
            simp at h
        · simp [utf8Len, h1, h2, h3] at h
  | a :: b :: c :: d :: r =>
    by_cases h1 : a.toNat < 128
    · simp [utf8Len, h1]
    · by_cases h2 : 194 ≤ a.toNat ∧ a.toNat ≤ 223
      · by_cases hb : utf8Cont b = true
        · simp [utf8Len, h1, h2, hb]
        · simp [utf8Len, h1, h2, hb] at h
      · by_cases h3 : 224 ≤ a.toNat ∧ a.toNat ≤ 239
        · by_cases hb : (utf8Cont b && utf8Cont c && decide (a.toNat = 224 → 160 ≤ b.toNat) && decide (a.toNat = 237 → b.toNat ≤ 159)) = true
          · simp only [utf8Len, h1, h2, h3, hb, if_true, if_false, and_self, List.take_succ_cons, List.take_zero, List.cons_append, List.nil_append]
          · simp only [utf8Len, h1, h2, h3, hb, if_true, if_false, and_self] at h
            simp at h
        · by_cases h4 : 240 ≤ a.toNat ∧ a.toNat ≤ 244
          · by_cases hb : (utf8Cont b && utf8Cont c && utf8Cont d && decide (a.toNat = 240 → 144 ≤ b.toNat) && decide (a.toNat = 244 → b.toNat ≤ 143)) = true
            · simp only [utf8Len, h1, h2, h3, h4, hb, if_true, if_false, and_self, List.take_succ_cons, List.take_zero, List.cons_append, List.nil_append]
            · simp only [utf8Len, h1, h2, h3, h4, hb, if_true, if_false, and_self] at h
              simp at h
          · simp [utf8Len, h1, h2, h3, h4] at h

/-- The pieces of a text. -/
def GoodPiece : Option GoString → Prop
  | none => True
  | some bs => bs ≠ [] ∧ utf8Len bs = bs.length ∧ ∀ t, utf8Len (bs ++ t) = bs.length

theorem goodPiece_take {s : GoString} (h : utf8Len s ≠ 0) : GoodPiece (some (s.take (utf8Len s))) := by
  have hl : (s.take (utf8Len s)).length = utf8Len s := by simp [Nat.min_eq_left (utf8Len_le s)]
  refine ⟨?_, ?_, ?_⟩
  · intro hz; rw [hz] at hl; simp at hl; omega
  · have := utf8Len_take h []; simp only [List.append_nil] at this; rw [this, hl]
  · intro t; rw [utf8Len_take h t, hl]

theorem cutRunes_good : ∀ (fuel : Nat) (s : GoString), ∀ x ∈ cutRunes fuel s, GoodPiece x := by
  intro fuel
  induction fuel with
  | zero => intro s x hx; simp [cutRunes] at hx
  | succ fuel ih =>
    intro s x hx
    match s with
    | [] => simp [cutRunes] at hx
    | a :: r =>
      simp only [cutRunes] at hx
      split at hx
      · simp only [List.mem_cons] at hx
        rcases hx with rfl | hx
        · trivial
        · exact ih _ x hx
      · rename_i h
        simp only [List.mem_cons] at hx
        rcases hx with rfl | hx
        · exact goodPiece_take h
        · exact ih _ x hx

/-- The bytes a piece is read back as. -/
def repairRune : Option GoString → GoString
  | none => [239, 191, 189]
  | some bs => bs

/-- The text read back. -/
def repair (s : GoString) : GoString := (cutRunes s.length s).flatMap repairRune

theorem ascii_of_len {b : UInt8} (h : utf8Len [b] = 1) : b.toNat < 128 := by
  apply Classical.byContradiction
  intro hn
  simp only [utf8Len, hn, if_false] at h
  repeat' split at h
  all_goals omega

theorem hexVal_hexDigit {n : Nat} (h : n < 16) : hexVal (hexDigit n) = some n := by
  have : ∀ n : Fin 16, hexVal (hexDigit n.1) = some n.1 := by decide
  exact this ⟨n, h⟩

/-- One ASCII byte is read back. -/
theorem unquote_ascii {b : UInt8} (h : b.toNat < 128) (fuel : Nat) (t : GoString) :
    unquoteBody (fuel + 1) (quoteAscii b ++ t) = (unquoteBody fuel t).map (b :: ·) := by
  unfold quoteAscii
  split
  · rename_i hb
    have : simpleEscape b = some b := by rcases hb with rfl | rfl <;> decide
    have h117 : b ≠ 117 := by rcases hb with rfl | rfl <;> decide
    simp [unquoteBody, this, h117]
  · rename_i hb
    split
    · rename_i h8; subst h8
      have : simpleEscape 98 = some 8 := by decide
      simp [unquoteBody, this]
    · split
      · rename_i h8; subst h8
        have : simpleEscape 102 = some 12 := by decide
        simp [unquoteBody, this]
      · split
        · rename_i h8; subst h8
          have : simpleEscape 110 = some 10 := by decide
          simp [unquoteBody, this]
        · split
          · rename_i h8; subst h8
            have : simpleEscape 114 = some 13 := by decide
            simp [unquoteBody, this]
          · split
            · rename_i h8; subst h8
              have : simpleEscape 116 = some 9 := by decide
              simp [unquoteBody, this]
            · split
              · have h0 : hexVal 48 = some 0 := by decide
                have hu : unquoteU (48 :: 48 :: hexDigit (b.toNat / 16) :: hexDigit (b.toNat % 16) :: t) = some ([b], t) := by
                  have e : ((0 * 16 + 0) * 16 + b.toNat / 16) * 16 + b.toNat % 16 = b.toNat := by omega
                  simp only [unquoteU, getU4, h0, hexVal_hexDigit (show b.toNat / 16 < 16 by omega),
                    hexVal_hexDigit (show b.toNat % 16 < 16 by omega), e]
                  rw [if_neg (by omega)]
                  simp [encodeRune, h]
                simp [unquoteBody, hu]
              · rename_i hs
                have h34 : b ≠ 34 := fun hz => hb (.inl hz)
                have h92 : b ≠ 92 := fun hz => hb (.inr hz)
                have h32 : ¬ b.toNat < 32 := fun hz => hs (.inl hz)
                have hl : utf8Len (b :: t) = 1 := by simp [utf8Len, h]
                simp [unquoteBody, h34, h92, h32, hl]

theorem lead_of_len {a : UInt8} {r : GoString} (h : 2 ≤ utf8Len (a :: r)) : 128 ≤ a.toNat := by
  apply Classical.byContradiction
  intro hn
  have : a.toNat < 128 := by omega
  simp [utf8Len, this] at h

theorem unquote_rune {x : Option GoString} (hx : GoodPiece x) (fuel : Nat) (t : GoString) :
    unquoteBody (fuel + 1) (quoteRune x ++ t) = (unquoteBody fuel t).map (repairRune x ++ ·) := by
  match x with
  | none =>
    have hu : unquoteU (102 :: 102 :: 102 :: 100 :: t) = some ([239, 191, 189], t) := by
      have h1 : hexVal 102 = some 15 := by decide
      have h2 : hexVal 100 = some 13 := by decide
      have h3 : encodeRune 65533 = [239, 191, 189] := by decide
      simp [unquoteU, getU4, h1, h2, h3]
    simp [quoteRune, unquoteBody, hu, repairRune]
  | some [] => exact absurd rfl hx.1
  | some [b] =>
    have := unquote_ascii (ascii_of_len hx.2.1) fuel t
    simpa [quoteRune, repairRune] using this
  | some (a :: b :: r) =>
    simp only [quoteRune]
    split
    · rename_i hb
      have hu : unquoteU (50 :: 48 :: 50 :: 56 :: t) = some ([226, 128, 168], t) := by
        have h1 : hexVal 50 = some 2 := by decide
        have h2 : hexVal 48 = some 0 := by decide
        have h4 : hexVal 56 = some 8 := by decide
        have h3 : encodeRune 8232 = [226, 128, 168] := by decide
        simp [unquoteU, getU4, h1, h2, h3, h4]
      simp [unquoteBody, hu, repairRune, hb]
    · split
      · rename_i hb
        have hu : unquoteU (50 :: 48 :: 50 :: 57 :: t) = some ([226, 128, 169], t) := by
          have h1 : hexVal 50 = some 2 := by decide
          have h2 : hexVal 48 = some 0 := by decide
          have h4 : hexVal 57 = some 9 := by decide
          have h3 : encodeRune 8233 = [226, 128, 169] := by decide
          simp [unquoteU, getU4, h1, h2, h3, h4]
        simp [unquoteBody, hu, repairRune, hb]
      · have hl := hx.2.2 t
        have ha := lead_of_len (a := a) (r := b :: r ++ t) (by
          simp only [List.cons_append] at hl ⊢
          rw [hl]; simp)
        have h92 : a ≠ 92 := by rintro rfl; simp at ha
        have h34 : a ≠ 34 := by rintro rfl; simp at ha
        have h32 : ¬ a.toNat < 32 := by omega
        have hnz : utf8Len (a :: b :: (r ++ t)) ≠ 0 := by
          simp only [List.cons_append] at hl; rw [hl]; simp
        simp only [List.cons_append] at hl
        simp only [List.cons_append, unquoteBody, h92, h34, h32, if_false, or_self, hnz, hl, repairRune]
        have e1 : List.drop (a :: b :: r).length (a :: b :: (r ++ t)) = t := by simp
        have e2 : List.take (a :: b :: r).length (a :: b :: (r ++ t)) = a :: b :: r := by simp
        rw [e1, e2]
        rfl

theorem quoteRune_len {x : Option GoString} (hx : GoodPiece x) : 1 ≤ (quoteRune x).length := by
  match x with
  | none => simp [quoteRune]
  | some [] => exact absurd rfl hx.1
  | some [b] =>
    simp only [quoteRune, quoteAscii]
    repeat' split
    all_goals simp
  | some (a :: b :: r) =>
    simp only [quoteRune]
    repeat' split
    all_goals simp

theorem unquote_pieces (xs : List (Option GoString)) (hx : ∀ x ∈ xs, GoodPiece x) :
    ∀ fuel, (xs.flatMap quoteRune).length ≤ fuel → unquoteBody fuel (xs.flatMap quoteRune) = some (xs.flatMap repairRune) := by
  induction xs with
  | nil => intro fuel _; cases fuel <;> simp [unquoteBody]
  | cons x xs ih =>
    intro fuel hf
    simp only [List.flatMap_cons, List.length_append] at hf ⊢
    have h1 := quoteRune_len (hx x (by simp))
    obtain ⟨f, rfl⟩ : ∃ f, fuel = f + 1 := ⟨fuel - 1, by omega⟩
    rw [unquote_rune (hx x (by simp)), ih (fun y hy => hx y (by simp [hy])) f (by omega)]
    rfl

/-- Writing a text as a string literal and reading it gives the repaired text. -/
theorem jsonUnquote_jsonQuote (s : GoString) : jsonUnquote (jsonQuote s) = some (repair s) := by
  unfold jsonQuote jsonUnquote
  simp only [List.getLast?_append, List.getLast?_singleton, Option.some_or, if_true, List.length_append, List.length_cons, List.length_nil,
    List.dropLast_concat]
  exact unquote_pieces _ (cutRunes_good _ _) _ (by simp)

/-! ### When the text is unchanged -/

theorem cutRunes_all {fuel : Nat} : ∀ {s : GoString}, s.length ≤ fuel →
    s.length ≤ ((cutRunes fuel s).flatMap repairRune).length ∧
    (none ∈ cutRunes fuel s → s.length < ((cutRunes fuel s).flatMap repairRune).length) ∧
    (none ∉ cutRunes fuel s → (cutRunes fuel s).flatMap repairRune = s) := by
  induction fuel with
  | zero => intro s h; have : s = [] := List.length_eq_zero_iff.1 (by omega); subst this; simp [cutRunes]
  | succ fuel ih =>
    intro s h
    match s with
    | [] => simp [cutRunes]
    | a :: r =>
      simp only [cutRunes]
      split
      · obtain ⟨i1, i2, i3⟩ := ih (s := r) (by simp at h; omega)
        refine ⟨?_, ?_, ?_⟩
        · simp only [List.flatMap_cons, repairRune, List.length_append, List.length_cons, List.length_nil]; omega
        · intro _; simp only [List.flatMap_cons, repairRune, List.length_append, List.length_cons, List.length_nil]; omega
        · intro hn; simp at hn
      · rename_i h0
        obtain ⟨i1, i2, i3⟩ := ih (s := (a :: r).drop (utf8Len (a :: r))) (by simp only [List.length_drop, List.length_cons] at h ⊢; omega)
        have hl := utf8Len_le (a :: r)
        have ht : ((a :: r).take (utf8Len (a :: r))).length = utf8Len (a :: r) := by simp only [List.length_take]; omega
        simp only [List.length_drop] at i1 i2
        refine ⟨?_, ?_, ?_⟩
        · simp only [List.flatMap_cons, repairRune, List.length_append, ht]; omega
        · intro hn
          simp only [List.mem_cons, reduceCtorEq, false_or] at hn
          have := i2 hn
          simp only [List.flatMap_cons, repairRune, List.length_append, ht]; omega
        · intro hn
          simp only [List.mem_cons, reduceCtorEq, false_or] at hn
          simp only [List.flatMap_cons, repairRune, i3 hn, List.take_append_drop]

theorem repair_eq_iff (s : GoString) : repair s = s ↔ none ∉ cutRunes s.length s := by
  obtain ⟨h1, h2, h3⟩ := cutRunes_all (s := s) (Nat.le_refl _)
  constructor
  · intro h hn
    have := h2 hn
    unfold repair at h
    rw [h] at this
    omega
  · exact h3

theorem utf8Bytes_len {c : Nat} (h : Scalar c) (t : GoString) : utf8Len (utf8Bytes c ++ t) = (utf8Bytes c).length := by
  unfold Scalar at h
  unfold utf8Bytes
  split
  · simp only [List.cons_append, List.nil_append, utf8Len, UInt8.toNat_ofNat']
    rw [if_pos (by omega)]; rfl
  · split
    · simp only [List.cons_append, List.nil_append, utf8Len, UInt8.toNat_ofNat', utf8Cont]
      rw [if_neg (by omega), if_pos (by omega), if_pos (by simp; omega)]; rfl
    · split
      · simp only [List.cons_append, List.nil_append, utf8Len, UInt8.toNat_ofNat', utf8Cont]
        rw [if_neg (by omega), if_neg (by omega), if_pos (by omega), if_pos (by simp; omega)]; rfl
      · simp only [List.cons_append, List.nil_append, utf8Len, UInt8.toNat_ofNat', utf8Cont]
        rw [if_neg (by omega), if_neg (by omega), if_neg (by omega), if_pos (by omega), if_pos (by simp; omega)]; rfl

theorem utf8Bytes_ne (c : Nat) : utf8Bytes c ≠ [] := by
  unfold utf8Bytes
  repeat' split
  all_goals simp

theorem cutRunes_valid (cs : List Nat) (h : ∀ c ∈ cs, Scalar c) : ∀ fuel, none ∉ cutRunes fuel (cs.flatMap utf8Bytes) := by
  induction cs with
  | nil => intro fuel; cases fuel <;> simp [cutRunes]
  | cons c cs ih =>
    intro fuel
    cases fuel with
    | zero => simp [cutRunes]
    | succ fuel =>
      have hl := utf8Bytes_len (h c (by simp)) (cs.flatMap utf8Bytes)
      have hne := utf8Bytes_ne c
      simp only [List.flatMap_cons]
      generalize hb : utf8Bytes c = bs at *
      match bs, hne with
      | a :: r, _ =>
        simp only [List.cons_append] at hl ⊢
        simp only [cutRunes]
        rw [if_neg (by rw [hl]; simp), hl]
        have e1 : List.drop (a :: r).length (a :: (r ++ cs.flatMap utf8Bytes)) = cs.flatMap utf8Bytes := by simp
        rw [e1]
        simp only [List.mem_cons, reduceCtorEq, false_or]
        exact ih (fun y hy => h y (by simp [hy])) fuel

theorem piece_scalar {bs : GoString} (h : GoodPiece (some bs)) : ∃ c, Scalar c ∧ bs = utf8Bytes c := by
  obtain ⟨h1, h2, _⟩ := h
  have inj : ∀ (n : Nat) (b : UInt8), n = b.toNat → UInt8.ofNat n = b := by
    intro n b hn; subst hn; exact UInt8.ofNat_toNat
  match bs with
  | [] => exact absurd rfl h1
  | [a] =>
    have := ascii_of_len h2
    refine ⟨a.toNat, by unfold Scalar; omega, ?_⟩
    simp [utf8Bytes, this]
  | [a, b] =>
    by_cases k1 : a.toNat < 128
    · simp [utf8Len, k1] at h2
    · by_cases k2 : 194 ≤ a.toNat ∧ a.toNat ≤ 223
      · by_cases hb : utf8Cont b = true
        · simp only [utf8Cont, decide_eq_true_eq] at hb
          refine ⟨(a.toNat - 192) * 64 + (b.toNat - 128), by unfold Scalar; omega, ?_⟩
          unfold utf8Bytes
          rw [if_neg (by omega), if_pos (by omega), inj _ a (by omega), inj _ b (by omega)]
        · simp [utf8Len, k1, k2, hb] at h2
      · simp [utf8Len, k1, k2] at h2
  | [a, b, c] =>
    by_cases k1 : a.toNat < 128
    · simp [utf8Len, k1] at h2
    · by_cases k2 : 194 ≤ a.toNat ∧ a.toNat ≤ 223
      · simp only [utf8Len, k1, k2, if_false, if_true, and_self] at h2
        split at h2 <;> simp at h2
      · by_cases k3 : 224 ≤ a.toNat ∧ a.toNat ≤ 239
        · by_cases hb : (utf8Cont b && utf8Cont c && decide (a.toNat = 224 → 160 ≤ b.toNat) && decide (a.toNat = 237 → b.toNat ≤ 159)) = true
          · simp only [utf8Cont, Bool.and_eq_true, decide_eq_true_eq] at hb
            refine ⟨(a.toNat - 224) * 4096 + (b.toNat - 128) * 64 + (c.toNat - 128), by unfold Scalar; omega, ?_⟩
            unfold utf8Bytes
            rw [if_neg (by omega), if_neg (by omega), if_pos (by omega), inj _ a (by omega), inj _ b (by omega), inj _ c (by omega)]
          · simp only [utf8Len, k1, k2, k3, hb, if_true, if_false, and_self] at h2
            simp at h2
        · simp [utf8Len, k1, k2, k3] at h2
  | [a, b, c, d] =>
    by_cases k1 : a.toNat < 128
    · simp [utf8Len, k1] at h2
    · by_cases k2 : 194 ≤ a.toNat ∧ a.toNat ≤ 223
      · simp only [utf8Len, k1, k2, if_false, if_true, and_self] at h2
        split at h2 <;> simp at h2
      · by_cases k3 : 224 ≤ a.toNat ∧ a.toNat ≤ 239
        · simp only [utf8Len, k1, k2, k3, if_false, if_true, and_self] at h2
          split at h2 <;> simp at h2
        · by_cases k4 : 240 ≤ a.toNat ∧ a.toNat ≤ 244
          · by_cases hb : (utf8Cont b && utf8Cont c && utf8Cont d && decide (a.toNat = 240 → 144 ≤ b.toNat) && decide (a.toNat = 244 → b.toNat ≤ 143)) = true
            · simp only [utf8Cont, Bool.and_eq_true, decide_eq_true_eq] at hb
              refine ⟨(a.toNat - 240) * 262144 + (b.toNat - 128) * 4096 + (c.toNat - 128) * 64 + (d.toNat - 128), by unfold Scalar; omega, ?_⟩
              unfold utf8Bytes
              rw [if_neg (by omega), if_neg (by omega), if_neg (by omega), inj _ a (by omega), inj _ b (by omega), inj _ c (by omega), inj _ d (by omega)]
            · simp only [utf8Len, k1, k2, k3, k4, hb, if_true, if_false, and_self] at h2
              simp at h2
          · simp [utf8Len, k1, k2, k3, k4] at h2
  | a :: b :: c :: d :: e :: r =>
    exfalso
    have : utf8Len (a :: b :: c :: d :: e :: r) ≤ 4 := by
      unfold utf8Len
      repeat' split
      all_goals omega
    simp only [List.length_cons] at h2
    omega

theorem pieces_valid (xs : List (Option GoString)) (hx : ∀ x ∈ xs, GoodPiece x) (hn : none ∉ xs) :
    ∃ cs : List Nat, (∀ c ∈ cs, Scalar c) ∧ xs.flatMap repairRune = cs.flatMap utf8Bytes := by
  induction xs with
  | nil => exact ⟨[], by simp, rfl⟩
  | cons x xs ih =>
    obtain ⟨cs, h1, h2⟩ := ih (fun y hy => hx y (by simp [hy])) (fun h => hn (by simp [h]))
    match x with
    | none => exact absurd (by simp) hn
    | some bs =>
      obtain ⟨c, hc, rfl⟩ := piece_scalar (hx (some bs) (by simp))
      refine ⟨c :: cs, ?_, ?_⟩
      · intro d hd
        simp only [List.mem_cons] at hd
        rcases hd with rfl | hd
        · exact hc
        · exact h1 d hd
      · simp only [List.flatMap_cons, h2, repairRune]

theorem repair_iff_valid (s : GoString) : repair s = s ↔ ValidUtf8 s := by
  constructor
  · intro h
    obtain ⟨cs, h1, h2⟩ := pieces_valid (cutRunes s.length s) (cutRunes_good _ _) ((repair_eq_iff s).1 h)
    exact ⟨cs, h1, by rw [← h2]; exact h.symm⟩
  · rintro ⟨cs, h1, rfl⟩
    exact (repair_eq_iff _).2 (cutRunes_valid cs h1 _)

theorem repair_valid (s : GoString) : ValidUtf8 (repair s) := by
  have key : ∀ xs : List (Option GoString), (∀ x ∈ xs, GoodPiece x) →
      ∃ cs : List Nat, (∀ c ∈ cs, Scalar c) ∧ xs.flatMap repairRune = cs.flatMap utf8Bytes := by
    intro xs
    induction xs with
    | nil => intro _; exact ⟨[], by simp, rfl⟩
    | cons x xs ih =>
      intro hx
      obtain ⟨cs, h1, h2⟩ := ih (fun y hy => hx y (by simp [hy]))
      obtain ⟨c, hc, he⟩ : ∃ c, Scalar c ∧ repairRune x = utf8Bytes c := by
        match x with
        | none => exact ⟨0xFFFD, by unfold Scalar; omega, by decide⟩
        | some bs =>
          obtain ⟨c, hc, hb⟩ := piece_scalar (hx (some bs) (by simp))
          exact ⟨c, hc, hb⟩
      refine ⟨c :: cs, ?_, by simp only [List.flatMap_cons, h2, he]⟩
      intro d hd
      simp only [List.mem_cons] at hd
      rcases hd with rfl | hd
      · exact hc
      · exact h1 d hd
  obtain ⟨cs, h1, h2⟩ := key _ (cutRunes_good s.length s)
  exact ⟨cs, h1, h2⟩

theorem ascii_valid {s : GoString} (h : ∀ b ∈ s, b.toNat < 128) : ValidUtf8 s := by
  refine ⟨s.map UInt8.toNat, ?_, ?_⟩
  · intro c hc
    obtain ⟨b, hb, rfl⟩ := List.mem_map.1 hc
    exact .inl (by have := h b hb; omega)
  · induction s with
    | nil => rfl
    | cons a r ih =>
      have ha := h a (by simp)
      simp only [List.map_cons, List.flatMap_cons, utf8Bytes, ha, if_true, UInt8.ofNat_toNat, List.cons_append, List.nil_append]
      rw [← ih (fun b hb => h b (by simp [hb]))]

end Willow
