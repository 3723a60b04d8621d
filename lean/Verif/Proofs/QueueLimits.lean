import Verif.Spec.Queue
import Verif.Proofs.LimiterTotals
/- The requests of a channel, seen by the limiter. -/
namespace Willow.Queue
open Willow Willow.Assoc Willow.Spec Willow.Limiter Willow.LimSpec

/-- What a request does to its counter. -/
def upv (a : Ask) (v : Int) : Int :=
  match a with
  | .up => v + 1
  | .upRefused => v
  | .down => max (v - 1) 0
  | .zero => 0

def isUp (a : Ask) : Int := if a = .up then 1 else 0

theorem valueAt_nonneg {cs : List Counter} (hp : ∀ c ∈ cs, 0 < c.value) (k : KVs Key) : 0 ≤ valueAt cs k := by
  unfold valueAt
  split
  · rename_i c h; exact Int.le_of_lt (hp c (List.mem_of_find?_eq_some h))
  · exact Int.le_refl _

theorem valueAt_congr {cs : List Counter} {k x : KVs Key} (hk : ValidKVs k) (hx : ValidKVs x) (h : sameKVs k x = true) : valueAt cs k = valueAt cs x := by
  unfold valueAt
  have : (fun c : Counter => sameKVs k c.kvs) = (fun c => sameKVs x c.kvs) := by funext c; exact sameKVs_congr hk hx h
  rw [this]

theorem same_ok {o : Out Key} (h : LimSpec.Same o .ok) : o = .ok := by cases o <;> simp_all [LimSpec.Same]
theorem ok_same {o : Out Key} (h : LimSpec.Same .ok o) : o = .ok := by cases o <;> simp_all [LimSpec.Same]

/-- One request. -/
theorem talk1 {k : KVs Key} {st st' : State Key} {a : Ask} {B : Int} (h : LInv st B) (hk : ValidKVs k) (ht : Typed k) (hB : B + isUp a < 2 ^ 63 - 1)
    (hB0 : 0 ≤ B) (hs : Talk1 k st a st') :
    LInv st' (B + isUp a) ∧ (abs st').rules = (abs st).rules ∧ (a = .up → allowed (abs st) k = true) ∧
    ∀ x, ValidKVs x → valueAt (abs st').counters x = if sameKVs k x then upv a (valueAt (abs st).counters x) else valueAt (abs st).counters x := by
  have hS := h.sinv
  have i1 : LimSpec.Int64 1 := by unfold LimSpec.Int64; omega
  have im : LimSpec.Int64 (-1) := by unfold LimSpec.Int64; omega
  have i0 : LimSpec.Int64 0 := by unfold LimSpec.Int64; omega
  cases hs with
  | up hch e =>
    rename_i ch
    have hb : B + 1 < 2 ^ 63 - 1 := hB
    obtain ⟨s2, o2, e2, hI, hab, hsame⟩ := sim_step h (op := .upsert ch k 1) ⟨hk, ht, i1, hch⟩ (by simp only [amount]; omega)
    rw [e] at e2; cases e2
    have hal : allowed (abs st) k = true := by
      cases hal : allowed (abs st) k with
      | true => rfl
      | false =>
        have := ok_same hsame
        simp [specStep, hal] at this
    simp only [specStep, hal, if_true, show (1 : Int) > 0 from by omega] at hab
    refine ⟨hI, by rw [hab], fun _ => hal, fun x hx => ?_⟩
    rw [hab]
    simp only
    rw [valueAt_put hS.cval hS.cpos hk hx]
    by_cases hsm : sameKVs k x = true
    · have := valueAt_congr (cs := (abs st).counters) hk hx hsm
      rw [if_pos hsm, if_pos hsm, ← this]
      simp only [upv]; split <;> omega
    · rw [if_neg hsm, if_neg hsm]
  | upRefused hch e hne =>
    rename_i ch out
    have hb : B + 0 < 2 ^ 63 - 1 := hB
    obtain ⟨s2, o2, e2, hI, hab, hsame⟩ := sim_step h (op := .upsert ch k 1) ⟨hk, ht, i1, hch⟩ (by simp only [amount]; omega)
    rw [e] at e2; cases e2
    have hal : allowed (abs st) k = false := by
      cases hal : allowed (abs st) k with
      | false => rfl
      | true =>
        simp only [specStep, hal, if_true, show (1 : Int) > 0 from by omega] at hsame
        exact absurd (same_ok hsame) hne
    simp only [specStep, hal, show (1 : Int) > 0 from by omega, if_true, Bool.false_eq_true, if_false] at hab
    refine ⟨{ hI with csum := ?_ }, by rw [hab], (fun h => by cases h), fun x hx => by rw [hab]; simp [upv]⟩
    have hc := congrArg St.counters hab
    simp only [abs] at hc
    have hsum : (st'.counters.items.map (·.value)) = st.counters.items.map (·.value) := by
      have := congrArg (List.map Counter.value) hc
      simpa [absCounter, Function.comp_def] using this
    rw [hsum]
    have := h.csum
    simp only [isUp]; simp; exact this
  | down hch e =>
    rename_i ch
    have hb : B + 0 < 2 ^ 63 - 1 := hB
    obtain ⟨s2, o2, e2, hI, hab, _⟩ := sim_step h (op := .upsert ch k (-1)) ⟨hk, ht, im, hch⟩ (by simp only [amount]; omega)
    rw [e] at e2; cases e2
    simp only [amount] at hI
    have hI' : LInv st' (B + isUp .down) := by
      have e0 : B + max (-1) 0 = B + isUp .down := by simp only [isUp]; simp; omega
      rw [← e0]; exact hI
    simp only [specStep, show ¬ ((-1 : Int) > 0) from by omega, if_false] at hab
    by_cases hv : valueAt (abs st).counters k + -1 ≤ 0
    · rw [if_pos hv] at hab
      refine ⟨hI', by rw [hab], (fun h => by cases h), fun x hx => ?_⟩
      rw [hab]; simp only
      rw [valueAt_remove hS.cval hk hx]
      by_cases hsm : sameKVs k x = true
      · have := valueAt_congr (cs := (abs st).counters) hk hx hsm
        rw [if_pos hsm, if_pos hsm]
        simp only [upv]; omega
      · rw [if_neg hsm, if_neg hsm]
    · rw [if_neg hv] at hab
      refine ⟨hI', by rw [hab], (fun h => by cases h), fun x hx => ?_⟩
      rw [hab]; simp only
      rw [valueAt_change hS.cval hk hx]
      by_cases hsm : sameKVs k x = true
      · have := valueAt_congr (cs := (abs st).counters) hk hx hsm
        have hp : present (abs st).counters k = true := (present_value hS.cpos k).2 (by omega)
        rw [if_pos hsm, if_pos hsm, if_pos hp]
        simp only [upv]; omega
      · rw [if_neg hsm, if_neg hsm]
  | zero e =>
    have hb : B + 0 < 2 ^ 63 - 1 := hB
    obtain ⟨s2, o2, e2, hI, hab, _⟩ := sim_step h (op := .setCounter k 0) ⟨hk, ht, i0⟩ (by simp only [amount]; omega)
    rw [e] at e2; cases e2
    simp only [specStep, Int.le_refl, if_true] at hab
    refine ⟨by simpa [amount, isUp] using hI, by rw [hab], (fun h => by cases h), fun x hx => ?_⟩
    rw [hab]; simp only
    rw [valueAt_remove hS.cval hk hx]
    simp [upv]

/-! ### Sums over counters -/

theorem groupTotal_nonneg {cs : List Counter} (hp : ∀ c ∈ cs, 0 < c.value) (keys : List GoString) (kvs : KVs Key) : 0 ≤ groupTotal cs keys kvs := by
  induction cs with
  | nil => exact Int.le_refl _
  | cons c cs ih =>
    rw [groupTotal_cons]
    have := ih (fun x hx => hp x (by simp [hx]))
    have := hp c (by simp)
    split <;> omega

/-- One counter taken out of its group. -/
theorem groupTotal_take {cs : List Counter} (hu : cs.Pairwise (fun a b => sameKVs a.kvs b.kvs = false)) (hcv : ∀ c ∈ cs, ValidKVs c.kvs)
    {k : KVs Key} (hk : ValidKVs k) {keys : List GoString} {kvs : KVs Key} (ha : agree keys kvs k = true) :
    groupTotal cs keys kvs = valueAt cs k + groupTotal (removeCounter cs k) keys kvs := by
  induction cs with
  | nil => simp [groupTotal, valueAt, removeCounter]
  | cons c cs ih =>
    rw [List.pairwise_cons] at hu
    have hc := hcv c (by simp)
    have ih := ih hu.2 (fun x hx => hcv x (by simp [hx]))
    rw [groupTotal_cons, find_cons']
    by_cases hs : sameKVs k c.kvs = true
    · have hag : agree keys kvs c.kvs = true := by rw [← agree_congr hk hc hs]; exact ha
      have hrm : removeCounter (c :: cs) k = cs := by
        unfold removeCounter
        rw [List.filter_cons]
        simp only [hs, Bool.not_true, Bool.false_eq_true, if_false]
        rw [List.filter_eq_self]
        intro x hx
        have h1 := hu.1 x hx
        have : sameKVs k x.kvs = sameKVs c.kvs x.kvs := sameKVs_congr hk hc hs
        rw [this, h1]; rfl
      rw [if_pos hs, hrm, if_pos hag]
    · have hrm : removeCounter (c :: cs) k = c :: removeCounter cs k := by
        unfold removeCounter
        rw [List.filter_cons]; simp [hs]
      rw [if_neg hs, hrm, groupTotal_cons, ih]; omega

/-- The sum of a list of tracked counters in a group. -/
def sumIn (keys : List GoString) (kvs : KVs Key) : List (KVs Key × Nat) → Int
  | [] => 0
  | (k, n) :: l => (if agree keys kvs k then (n : Int) else 0) + sumIn keys kvs l

theorem sumIn_append (keys : List GoString) (kvs : KVs Key) (a b : List (KVs Key × Nat)) : sumIn keys kvs (a ++ b) = sumIn keys kvs a + sumIn keys kvs b := by
  induction a with
  | nil => simp [sumIn]
  | cons x a ih => obtain ⟨k, n⟩ := x; simp only [List.cons_append, sumIn, ih]; omega

/-- Different counters of a group, each at most as large as stored. -/
theorem sumIn_le {T : List (KVs Key × Nat)} {keys : List GoString} {kvs : KVs Key} : ∀ {cs : List Counter},
    (∀ c ∈ cs, 0 < c.value) → cs.Pairwise (fun a b => sameKVs a.kvs b.kvs = false) → (∀ c ∈ cs, ValidKVs c.kvs) →
    (∀ t ∈ T, ValidKVs t.1 ∧ (t.2 : Int) ≤ valueAt cs t.1) → T.Pairwise (fun a b => sameKVs a.1 b.1 = false) →
    sumIn keys kvs T ≤ groupTotal cs keys kvs := by
  induction T with
  | nil => intro cs hp _ _ _ _; exact groupTotal_nonneg hp _ _
  | cons t T ih =>
    obtain ⟨k, n⟩ := t
    intro cs hp hu hcv ht hd
    rw [List.pairwise_cons] at hd
    obtain ⟨hk, hn⟩ := ht (k, n) (by simp)
    simp only at hk hn
    simp only [sumIn]
    by_cases ha : agree keys kvs k = true
    · rw [if_pos ha, groupTotal_take hu hcv hk ha]
      have hsub : ∀ c ∈ removeCounter cs k, c ∈ cs := fun c hc => (List.mem_filter.1 hc).1
      have := ih (cs := removeCounter cs k) (fun c hc => hp c (hsub c hc)) (hu.sublist List.filter_sublist) (fun c hc => hcv c (hsub c hc)) (by
        intro t hm
        obtain ⟨h1, h2⟩ := ht t (by simp [hm])
        refine ⟨h1, ?_⟩
        rw [valueAt_remove hcv hk h1, if_neg (by rw [hd.1 t hm]; simp)]
        exact h2) hd.2
      omega
    · rw [if_neg ha]
      have := ih hp hu hcv (fun t hm => ht t (by simp [hm])) hd.2
      omega

end Willow.Queue
