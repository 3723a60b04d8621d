import Verif.Proofs.BTreeConcBalance
set_option linter.unusedSectionVars false
set_option linter.unusedSimpArgs false
/-! A step of a call seen from the nodes above; every step of every call keeps the invariant. -/
namespace Willow.BTreeConc
open KeyOps BTree Spec LawfulKey

variable {K V : Type} [LawfulKey K]

theorem wfc {n h} : ∀ (lo hi : Option K) (c : CNode K V), WF n false h lo hi c → Chain lo hi (flat c) := fun _ _ _ => wf_chain

/-- An effect on a child is the same effect on the whole node. -/
theorem effect_lift {n h} {lo hi : Option K} {op : Op K V} {o} {ka kb : List (K × V)} {ca cb : List (CNode K V)} {c c'}
    (hl : ca.length = ka.length) (p1 : Pre (WF n false h) lo ka ca) (p2 : Post (WF n false h) hi kb cb)
    (he : Effect (loAfter lo ka) (hiBefore kb hi) op o (flat c) (flat c')) :
    Effect lo hi op o (weave (ca ++ c :: cb) (ka ++ kb)) (weave (ca ++ c' :: cb) (ka ++ kb)) := by
  rw [weave_focus hl, weave_focus hl]
  have key : ∀ out, listStep (flat c) op = (flat c', out) → Gap (loAfter lo ka) (some (opKey op)) → Gap (some (opKey op)) (hiBefore kb hi) →
      listStep (before ca ka ++ (flat c ++ after cb kb)) op = (before ca ka ++ (flat c' ++ after cb kb), out) ∧
        Gap lo (some (opKey op)) ∧ Gap (some (opKey op)) hi := by
    intro out h1 h2 h3
    obtain ⟨a1, a2⟩ := before_lt wfc p1 h2
    obtain ⟨b1, b2⟩ := after_gt wfc p2 h3
    rw [← List.append_assoc, ← List.append_assoc, listStep_mid a1 b1, h1]
    exact ⟨rfl, a2, b2⟩
  cases o with
  | moved => simp only [Effect] at he ⊢; rw [he]
  | left out => simp only [Effect] at he ⊢; rw [he]
  | again => simp only [Effect] at he ⊢; rw [he]
  | applied out => exact key out he.1 he.2.1 he.2.2
  | answered out => exact key out he.1 he.2.1 he.2.2

theorem linkOk_step {n i c c'} {m : Mark K V} {kvs cm cm'} (h : LinkOk n m kvs i cm c) (h1 : swapOf cm' = swapOf cm)
    (h2 : n / 2 + 1 ≤ c → n / 2 + 1 ≤ c') : LinkOk n m kvs i cm' c' := by
  cases m <;> simp only [LinkOk] at h ⊢ <;> first | exact h.elim | skip
  · rw [h1]; exact h
  · rw [h1]; exact ⟨h.1, h.2.imp id (fun g => ⟨g.1, h2 g.2⟩)⟩
  · rw [h1]; exact ⟨h.1, h.2.imp id (fun g => ⟨g.1, h2 g.2⟩)⟩
  · rw [h1]; exact h

theorem unlinked_swap {n rt h} {lo hi : Option K} {d : CNode K V} (w : WF n rt h lo hi d) (hu : d.linked = false) {hd kv}
    (h1 : d.hold = some hd) (h2 : swapOf hd.mark = some kv) : False := by
  cases d with
  | mk w' rs kvs cs =>
    simp at h1; subst h1
    simp at hu
    have := not_swap_unlinked w h2
    rw [hu] at this; cases this

theorem waits_size {n rt h c} {m : Mark K V} (hs : MarkSize n rt h c m) (hw : m.waits = true) : SizeOk n rt h c := by
  refine sizeOk_of_mark hs ?_
  intro o; refine ⟨?_, ?_⟩ <;> rintro rfl <;> simp [Mark.waits] at hw

theorem gap_irrefl {a : K} (h : Gap (some a) (some a)) : False := by simp [irrefl] at h

/-- A `swap` that works to the right of the deleted item is in the first child, to the left in the last one. -/
theorem swap_first {lo hi : Option K} {ka kb : List (K × V)} {k : K} (ch : Chain lo hi (ka ++ kb)) (hlo : lo = some k)
    (h : loAfter lo ka = some k ∨ hiBefore kb hi = some k) : ka = [] := by
  subst hlo
  rcases h with h | h
  · cases hd : ka.reverse with
    | nil => simpa using hd
    | cons y ys =>
      have e : ka = ys.reverse ++ [y] := by rw [← List.reverse_reverse ka, hd]; simp
      rw [e, loAfter_snoc] at h
      injection h with h
      have := (chain_mem ch (x := y) (by rw [e]; simp)).1
      rw [h] at this
      exact (gap_irrefl this).elim
  · cases kb with
    | nil => simp at h; subst h; exact (gap_irrefl (chain_gap ch)).elim
    | cons y ys =>
      simp at h
      have := (chain_mem ch (x := y) (by simp)).1
      rw [h] at this
      exact (gap_irrefl this).elim
theorem swap_last {lo hi : Option K} {ka kb : List (K × V)} {k : K} (ch : Chain lo hi (ka ++ kb)) (hhi : hi = some k)
    (h : loAfter lo ka = some k ∨ hiBefore kb hi = some k) : kb = [] := by
  subst hhi
  rcases h with h | h
  · cases hd : ka.reverse with
    | nil =>
      simp at hd; subst hd; simp at h; subst h; exact (gap_irrefl (chain_gap ch)).elim
    | cons y ys =>
      have e : ka = ys.reverse ++ [y] := by rw [← List.reverse_reverse ka, hd]; simp
      rw [e, loAfter_snoc] at h
      injection h with h
      have := (chain_mem ch (x := y) (by rw [e]; simp)).2
      rw [h] at this
      exact (gap_irrefl this).elim
  · cases kb with
    | nil => rfl
    | cons y ys =>
      simp at h
      have := (chain_mem ch (x := y) (by simp)).2
      rw [h] at this
      exact (gap_irrefl this).elim

theorem markOk_swap {lo hi : Option K} {kvs : List (K × V)} {op : Op K V} {m kv} (h : MarkOk lo hi kvs op m) (hs : swapOf m = some kv) :
    lo = some kv.1 ∨ hi = some kv.1 := by
  cases m <;> simp [swapOf] at hs
  · subst hs; exact h.1
  · subst hs; exact h.1

theorem step_inner {n rt h} {lo hi : Option K} {id : Nat} {op : Op K V} {lk m rs} {kvs : List (K × V)} {ca : List (CNode K V)} {c cb hc0 e c'}
    (hn2 : 2 ≤ n) (wf : WF n rt h lo hi (.mk (some ⟨id, op, lk, m⟩) rs kvs (ca ++ c :: cb)))
    (hm : m.waits = true) (hc : c.hold = some hc0) (hl : hc0.linked = true)
    (ih : ∀ h lo hi, WF n false h lo hi c → StepOk n false h lo hi hc0 c e c') :
    StepOk n rt h lo hi ⟨id, op, lk, m⟩ (.mk (some ⟨id, op, lk, m⟩) rs kvs (ca ++ c :: cb)) { e with swap := nextSwap m e.swap }
      (.mk (if e.rel then none else some ⟨id, op, lk, nextMark m e.swap⟩) rs (nextKvs m kvs e.swap) (ca ++ c' :: cb)) := by
  cases h with
  | zero => simp [WF] at wf
  | succ h =>
    have hks := wf_ks wf
    have hfl := wf_chain wf
    rw [flat_mk] at hfl
    obtain ⟨ka, kb, rfl, e1, e2⟩ := forest_split wf.1
    obtain ⟨f, na, ⟨lr, l1, l2, l3, l4⟩, lk'⟩ := wf
    rw [forest_focus e1.symm] at f
    obtain ⟨_, ⟨ch, hc', _, g3, g4, g5⟩, u1, u2⟩ := links_at lk' (by rw [linked_of_hold hc, hl])
    rw [hc] at hc'; injection hc' with hc'; subst hc'
    have ok := ih _ _ _ f.2.1
    have hlbl : MarkOk (loAfter lo ka) (hiBefore kb hi) c.kvs hc0.op hc0.mark := by
      cases c with
      | mk cw cr ck cc => simp at hc; subst hc; exact (wf_lbl f.2.1).2.2.2.1
    have hsz := waits_size l2 hm
    subst l1
    have hid : e.id = id := ok.id.trans g3
    have hop : e.op = op := ok.op.trans g4
    cases hsw : e.swap with
    | none =>
      obtain ⟨wc', heff⟩ := ok.plain hsw
      rw [g4] at heff
      have hF : Forest (WF n false h) lo hi (ka ++ kb) (ca ++ c' :: cb) := (forest_focus e1.symm).2 ⟨f.1, wc', f.2.2⟩
      have heff' := effect_lift e1.symm f.1 f.2.2 heff
      have hns : nextSwap m none = none := by cases m <;> rfl
      cases hrel : e.rel with
      | true =>
        have h0 := ok.rel hrel
        refine ⟨hid, hop, fun _ => by simp, (fun hx => by simp [hrel] at hx), fun _ => ⟨?_, ?_⟩, (fun x hx => by simp [hns] at hx)⟩
        · refine ⟨hF, na, lbl_none hsz, ?_⟩
          intro x hx; simp at hx
          rcases hx with hx | rfl | hx
          · exact u1 x hx
          · simp [CNode.linked, h0]
          · exact u2 x hx
        · simp only [flat_mk, nextKvs]; exact heff'
      | false =>
        obtain ⟨m2, k1, k2, k3⟩ := ok.keep hrel
        refine ⟨hid, hop, (fun hx => by simp [hrel] at hx), fun _ => ⟨m, by simp [nextMark], by simp [hns], by simp [nextKvs]⟩,
          fun _ => ⟨?_, ?_⟩, (fun x hx => by simp [hns] at hx)⟩
        · refine ⟨hF, na, ⟨by simp, rfl, l2, l3, l4⟩, ?_⟩
          simp only [nextMark, nextKvs, Links]
          refine (if_pos hm).mpr ?_
          refine ⟨ca, c', cb, _, rfl, k1, hl, g3, g4, ?_, u1, u2⟩
          refine linkOk_step g5 ?_ k3
          rw [k2, hsw]; simp
        · simp only [flat_mk, nextKvs]; exact heff'
    | some x =>
      obtain ⟨kv, s1, ⟨k, can, s2, s3⟩, s4, s5⟩ := ok.swap x hsw
      rw [g4] at s2
      simp only at s2
      have hside := markOk_swap hlbl s1
      cases m with
      | inSwap kv' =>
        simp only [LinkOk] at g5
        rw [s1] at g5; injection g5 with g5; subst g5
        have hlk : lk = true := by
          cases lk with
          | true => rfl
          | false => have := (l4 rfl).2; simp [swapOf] at this
        have hlink : ∀ rl, (rl = true → c'.hold = none) → (rl = false → ∃ m2, c'.hold = some { hc0 with mark := m2 } ∧ swapOf m2 = none) →
            Links n (if rl then none else some ⟨id, op, lk, .inChild⟩) (ka ++ kb) (ca ++ c' :: cb) := by
          intro rl h1 h2
          cases rl with
          | true =>
            intro y hy; simp at hy
            rcases hy with hy | rfl | hy
            · exact u1 y hy
            · simp [CNode.linked, h1 rfl]
            · exact u2 y hy
          | false =>
            obtain ⟨m2, k1, k2⟩ := h2 rfl
            simp only [Links, Mark.waits, if_true]
            exact ⟨ca, c', cb, _, rfl, k1, hl, g3, g4, k2, u1, u2⟩
        have hlnk := hlink e.rel ok.rel (fun hx => by
          obtain ⟨m2, k1, k2, _⟩ := ok.keep hx
          exact ⟨m2, k1, by rw [k2, hsw]; simp⟩)
        have hlb : ∀ lo' hi' : Option K, Lbl n rt (h+1) lo' hi' (if e.rel then none else some ⟨id, op, lk, .inChild⟩) [] (ka ++ kb) := by
          intro lo' hi'
          cases e.rel with
          | true => exact lbl_none hsz
          | false =>
            refine ⟨by simp, rfl, hsz, .inr l3.2.1, ?_⟩
            intro hx; simp [hlk] at hx
        refine ⟨hid, hop, ?_, ?_, (fun hx => by simp [nextSwap] at hx), ?_⟩
        · intro hx; have hx : e.rel = true := hx; rw [hx]; rfl
        · intro hx
          have hx : e.rel = false := hx
          rw [hx]
          exact ⟨.inChild, rfl, by simp [nextSwap, swapOf], by simp [nextKvs]⟩
        · intro y hy
          simp [nextSwap] at hy; subst hy
          refine ⟨kv, rfl, ⟨k, can, s2, s3⟩, ?_, ?_⟩
          · intro hlo
            have hka := swap_first hks hlo hside
            subst hka
            have hca : ca = [] := by simpa using e1.symm
            subst hca
            obtain ⟨w', fl⟩ := s4 hlo
            refine ⟨⟨?_, na, hlb _ _, hlnk⟩, ?_⟩
            · exact ⟨w', f.2.2⟩
            · simp only [flat_mk, nextKvs, List.nil_append, weave, fl, List.cons_append]
          · intro hhi
            have hkb := swap_last hks hhi hside
            subst hkb
            have hcb : cb = [] := by simpa using e2.symm
            subst hcb
            obtain ⟨w', fl⟩ := s5 (by simpa using hhi)
            refine ⟨⟨?_, na, hlb _ _, hlnk⟩, ?_⟩
            · exact (forest_focus e1.symm).2 ⟨f.1, w', f.2.2⟩
            · simp only [flat_mk, nextKvs]
              rw [weave_focus e1.symm, weave_focus e1.symm, fl]; simp [after]
      | swapIn j =>
        obtain ⟨⟨kv', q1, q2⟩, q3⟩ := g5
        rw [s1] at q2; injection q2 with q2; subst q2
        obtain ⟨hdel, kv', q4, q5, q6⟩ := l3
        rw [q1] at q4; injection q4 with q4; subst q4
        subst s2
        simp only [opKey] at q5
        simp only [canOf] at q6
        have hkvmem := List.mem_of_getElem? q1
        have hgaps := chain_mem hks hkvmem
        have hgk1 : Gap lo (some k) := gap_keq_right hgaps.1 q5
        have hgk2 : Gap (some k) hi := gap_keq_left hgaps.2 q5
        -- it is enough to look at the two sides
        have main : ∃ ks', (ka ++ kb).set j x = ks' ∧ ks'.length = (ka ++ kb).length ∧ Forest (WF n false h) lo hi ks' (ca ++ c' :: cb) ∧
            (∀ y ∈ ks', typ y.1 ≠ DataType.any) ∧
            ∃ L R, weave (ca ++ c :: cb) (ka ++ kb) = L ++ kv :: R ∧ weave (ca ++ c' :: cb) ks' = L ++ R := by
          rcases q3 with hij | ⟨hij, hcnt⟩
          · -- the left neighbour
            cases kb with
            | nil => simp at q1; rw [List.getElem?_eq_none (by omega)] at q1; cases q1
            | cons kv0 kb =>
              have : kv0 = kv := by
                rw [List.getElem?_append_right (by omega)] at q1
                have : j - ka.length = 0 := by omega
                rw [this] at q1; simpa using q1
              subst this
              cases cb with
              | nil => simp at e2
              | cons d cb =>
                obtain ⟨f1, f2, f3, f4⟩ := f
                obtain ⟨w', fl⟩ := s5 rfl
                have hxlt : lt x.1 kv0.1 = true := by
                  have := wf_chain f2
                  rw [fl] at this
                  have := (chain_mem this (x := x) (by simp)).2
                  simpa using this
                have wd := wf_widenLo hxlt f3 (fun hd kv h1 h2 => (unlinked_swap f3 (u2 d (by simp)) h1 h2).elim)
                refine ⟨ka ++ x :: kb, set_mid _ _ _ _ _ (by omega), by simp, (forest_focus e1.symm).2 ⟨f1, w', wd, f4⟩, ?_,
                  before ca ka ++ (flat c' ++ [x]), flat d ++ after cb kb, ?_, ?_⟩
                · intro y hy; simp at hy
                  rcases hy with hy | rfl | hy
                  · exact na y (by simp [hy])
                  · exact any_top hxlt
                  · exact na y (by simp [hy])
                · rw [weave_focus e1.symm, fl]; simp [after]
                · rw [weave_focus e1.symm]; simp [after]
          · -- the right neighbour
            obtain ⟨ka, y, rfl⟩ := snoc_of_length (l := ka) (n := j) (by omega)
            have hj : ka.length = j := by simp at e1; omega
            have : y = kv := by
              rw [List.append_assoc, List.getElem?_append_right (by omega)] at q1
              simpa [hj] using q1
            subst this
            obtain ⟨ca, b, rfl⟩ := snoc_of_length (l := ca) (n := j) (by omega)
            have hcj : ca.length = ka.length := by simp at hij; omega
            obtain ⟨f1, f2, f4⟩ := f
            rw [pre_append hcj] at f1
            obtain ⟨f1, f3, _⟩ := f1
            simp only [loAfter_append, loAfter_cons, loAfter_nil] at f2 s4
            obtain ⟨w', fl⟩ := s4 trivial
            have hcf := wf_chain f2
            rw [fl] at hcf
            have hxlt : lt y.1 x.1 = true := by simpa using hcf.1
            have hxna : typ x.1 ≠ DataType.any := by
              cases hfc : flat c' with
              | nil =>
                have h1 : (flat c).length = 1 := by rw [fl, hfc]; rfl
                rw [flat_eq] at h1
                have := length_weave (cs := c.children) (ks := c.kvs)
                have h2 : c.kvs.length = c.count := rfl
                omega
              | cons z zs => rw [hfc] at hcf; exact not_any_of_next (a := []) hcf
            have wb := wf_widenHi hxlt f3 (fun hd kv h1 h2 => (unlinked_swap f3 (u1 b (by simp)) h1 h2).elim)
            have eq1 : ∀ z : CNode K V, ca ++ [b] ++ z :: cb = ca ++ b :: z :: cb := by simp
            have eq2 : ∀ z : K × V, ka ++ [z] ++ kb = ka ++ z :: kb := by simp
            rw [eq1, eq1, eq2]
            refine ⟨ka ++ x :: kb, set_mid _ _ _ _ _ hj.symm, by simp, (forest_focus hcj).2 ⟨f1, wb, w', f4⟩, ?_,
              before ca ka ++ flat b, x :: (flat c' ++ after cb kb), ?_, ?_⟩
            · intro z hz; simp at hz
              rcases hz with hz | rfl | hz
              · exact na z (by simp [hz])
              · exact hxna
              · exact na z (by simp [hz])
            · rw [weave_focus hcj]; simp [after, fl]
            · rw [weave_focus hcj]; simp [after]
        obtain ⟨ks', m1, m2, m3, m4, L, R, m5, m6⟩ := main
        have heff := delete_effect (can := can) m5 (chain_sorted hfl) q5 q6
        have hEff : Effect lo hi (.delete k can) e.outcome (weave (ca ++ c :: cb) (ka ++ kb)) (weave (ca ++ c' :: cb) ks') := by
          rw [m6]
          rcases s3 with s3 | s3 <;> rw [s3] <;> exact ⟨heff, hgk1, hgk2⟩
        simp only [nextKvs, m1, nextSwap, nextMark]
        cases hrel : e.rel with
        | true =>
          have h0 := ok.rel hrel
          refine ⟨hid, hop, fun _ => by simp, (fun hx => by simp [hrel] at hx), fun _ => ⟨?_, ?_⟩, (fun x hx => by simp at hx)⟩
          · refine ⟨m3, m4, lbl_none (by rw [m2]; exact hsz), ?_⟩
            intro x hx; simp at hx
            rcases hx with hx | rfl | hx
            · exact u1 x hx
            · simp [CNode.linked, h0]
            · exact u2 x hx
          · simp only [flat_mk]; exact hEff
        | false =>
          obtain ⟨m2', k1, k2, k3⟩ := ok.keep hrel
          refine ⟨hid, hop, (fun hx => by simp [hrel] at hx), fun _ => ⟨.swapped j, by simp, by simp [swapOf], by simp [m2]⟩,
            fun _ => ⟨?_, ?_⟩, (fun x hx => by simp at hx)⟩
          · refine ⟨m3, m4, ⟨by simp, rfl, ?_, hdel, ?_⟩, ?_⟩
            · rw [m2]; exact hsz
            · rw [m2]; intro hx; exact ⟨(l4 hx).1, rfl⟩
            · simp only [Links, Mark.waits, if_true]
              refine ⟨ca, c', cb, _, rfl, k1, hl, g3, g4, ⟨by rw [k2, hsw]; simp, ?_⟩, u1, u2⟩
              exact q3.imp (fun g => g) (fun g => ⟨g.1, k3 g.2⟩)
          · simp only [flat_mk]; exact hEff
      | inChild => simp [LinkOk, s1] at g5
      | swapped j => simp [LinkOk, s1] at g5
      | down => simp [Mark.waits] at hm
      | swapDown => simp [Mark.waits] at hm
      | over => simp [Mark.waits] at hm
      | under => simp [Mark.waits] at hm

/-- Every step of a call that holds a node keeps the invariant and has the right effect. -/
theorem cstep_ok {n} (hn2 : 2 ≤ n) {t : CNode K V} {e t'} (st : CStep n t e t') :
    ∃ hd, t.hold = some hd ∧ ∀ rt h lo hi, WF n rt h lo hi t → StepOk n rt h lo hi hd t e t' := by
  induction st with
  | descend hh hi hf hs => exact ⟨_, rfl, fun rt h lo hi' wf => step_descend wf hh hi hf false hs⟩
  | descendRelease hh hi hf hs => exact ⟨_, rfl, fun rt h lo hi' wf => step_descend wf hh hi hf true hs⟩
  | found hw hh => exact ⟨_, rfl, fun rt h lo hi' wf => step_found wf hw hh⟩
  | insert hw hh hn => exact ⟨_, rfl, fun rt h lo hi' wf => (step_insert wf hw hh).1 hn⟩
  | insertOver hw hh hn => exact ⟨_, rfl, fun rt h lo hi' wf => (step_insert wf hw hh).2 hn⟩
  | split hc hf hp hn => exact ⟨_, rfl, fun rt h lo hi' wf => (step_split hn2 wf hc hp).1 hn⟩
  | splitOver hc hf hp hn => exact ⟨_, rfl, fun rt h lo hi' wf => (step_split hn2 wf hc hp).2 hn⟩
  | missing hh => exact ⟨_, rfl, fun rt h lo hi' wf => step_missing wf hh⟩
  | refused hh hr => exact ⟨_, rfl, fun rt h lo hi' wf => step_refused wf hh hr⟩
  | removeLeaf hh hr hu => exact ⟨_, rfl, fun rt h lo hi' wf => (step_remove wf hh hr).1 hu⟩
  | removeLeafUnder hh hr hu => exact ⟨_, rfl, fun rt h lo hi' wf => (step_remove wf hh hr).2 hu⟩
  | @swapRight id k can lk rs kvs ca c d cb kv hh hr hi hc hd hm =>
    refine ⟨_, rfl, fun rt h lo hi' wf => ?_⟩
    have e : ∀ z : CNode K V, ca ++ c :: z :: cb = (ca ++ [c]) ++ z :: cb := by simp
    rw [e] at wf ⊢
    rw [e]
    refine step_swapIn wf hh hr hd (.inr ⟨by simp [hi], ?_⟩)
    cases h with
    | zero => simp [WF] at wf
    | succ h =>
      obtain ⟨lo', hi'', wc⟩ := forest_mem wf.1 (c := c) (by simp)
      have := (wf_free wc hc).2.2.1.2.1 rfl
      omega
  | swapLeft hh hr hi hc hd hm => exact ⟨_, rfl, fun rt h lo hi' wf => step_swapIn wf hh hr hc (.inl hi)⟩
  | @swapFirst id op lk rs kvs first rest c cb kv hk hl hf =>
    refine ⟨_, rfl, fun rt h lo hi' wf => ?_⟩
    have hm := (wf_lbl wf).2.2.2.1
    refine step_swapOn (ca := []) wf hf (.inl ⟨rfl, ?_⟩)
    rcases hm.1 with g | g
    · exact g
    · have := (swap_side (wf_ks wf) (first := first) (by simp [hk])).2 g hm.2.2
      rw [hl] at this; cases this
  | @swapLast id op lk rs kvs first rest ca c kv hk hl hf =>
    refine ⟨_, rfl, fun rt h lo hi' wf => ?_⟩
    have hm := (wf_lbl wf).2.2.2.1
    refine step_swapOn (ca := ca) wf hf (.inr ⟨rfl, ?_⟩)
    rcases hm.1 with g | g
    · have := (swap_side (wf_ks wf) (first := first) (by simp [hk])).1 g
      rw [hl] at this; cases this
    · exact g
  | @takeFirst id k can lk rs first rest kv hl hu =>
    refine ⟨_, rfl, fun rt h lo hi' wf => ?_⟩
    have hm := (wf_lbl wf).2.2.2.1
    refine (step_take wf (.inl ⟨rfl, fun g => ?_⟩)).1 hu
    have := (swap_side (wf_ks wf) (first := first) (by simp)).2 g hm.2.2
    rw [hl] at this; cases this
  | @takeFirstUnder id k can lk rs first rest kv hl hu =>
    refine ⟨_, rfl, fun rt h lo hi' wf => ?_⟩
    have hm := (wf_lbl wf).2.2.2.1
    refine (step_take wf (.inl ⟨rfl, fun g => ?_⟩)).2 hu
    have := (swap_side (wf_ks wf) (first := first) (by simp)).2 g hm.2.2
    rw [hl] at this; cases this
  | @takeLast id k can lk rs kvs first last kv h1 hl hu =>
    refine ⟨_, rfl, fun rt h lo hi' wf => ?_⟩
    refine (step_take wf (.inr ⟨rfl, fun g => ?_⟩)).1 hu
    have := (swap_side (wf_ks wf) (first := first) (List.mem_of_mem_head? h1)).1 g
    rw [hl] at this; cases this
  | @takeLastUnder id k can lk rs kvs first last kv h1 hl hu =>
    refine ⟨_, rfl, fun rt h lo hi' wf => ?_⟩
    refine (step_take wf (.inr ⟨rfl, fun g => ?_⟩)).2 hu
    have := (swap_side (wf_ks wf) (first := first) (List.mem_of_mem_head? h1)).1 g
    rw [hl] at this; cases this
  | rotateLeft hm hc hi hx hl hd hg hs hk => exact ⟨_, rfl, fun rt h lo hi' wf => step_rotateLeft wf hc hi hd hs hk⟩
  | rotateRight hm hc hi hx hb hd hs hk => exact ⟨_, rfl, fun rt h lo hi' wf => step_rotateRight wf hc hi hb hs hk⟩
  | mergeLeft hm hc hi hx hb hd hg hs hs' hu =>
    exact ⟨_, rfl, fun rt h lo hi' wf => (step_merge hn2 wf (.inl ⟨hc, hb, hs⟩) hi).1 hu⟩
  | mergeLeftUnder hm hc hi hx hb hd hg hs hs' hu =>
    exact ⟨_, rfl, fun rt h lo hi' wf => (step_merge hn2 wf (.inl ⟨hc, hb, hs⟩) hi).2 hu⟩
  | mergeRight hm hc hx hd hr hg hs hu =>
    exact ⟨_, rfl, fun rt h lo hi' wf => (step_merge (ka := []) (ca := []) hn2 wf (.inr ⟨hc, hd, hs⟩) rfl).1 hu⟩
  | mergeRightUnder hm hc hx hd hr hg hs hu =>
    exact ⟨_, rfl, fun rt h lo hi' wf => (step_merge (ka := []) (ca := []) hn2 wf (.inr ⟨hc, hd, hs⟩) rfl).2 hu⟩
  | inner hm hc hl hid hop hs ih =>
    obtain ⟨hd, h1, h2⟩ := ih
    rw [hc] at h1; injection h1 with h1; subst h1
    exact ⟨_, rfl, fun rt h lo hi' wf => step_inner hn2 wf hm hc hl (fun h lo hi w => h2 false h lo hi w)⟩

end Willow.BTreeConc
