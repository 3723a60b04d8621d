import Verif.Proofs.BTreeConcTop
set_option linter.unusedSectionVars false
set_option linter.unusedSimpArgs false
/-! Progress: while a call is under way some call can move. -/
namespace Willow.BTreeConc
open KeyOps BTree Spec LawfulKey

variable {K V : Type} [LawfulKey K]

theorem split_at {α : Type} {l : List α} {i : Nat} (h : i < l.length) : ∃ a x b, l = a ++ x :: b ∧ a.length = i :=
  ⟨l.take i, l[i], l.drop (i+1), by rw [← List.drop_eq_getElem_cons h, List.take_append_drop], by simp; omega⟩

theorem linked_hold {t : CNode K V} (h : t.linked = true) : ∃ hd, t.hold = some hd ∧ hd.linked = true := by
  cases ht : t.hold with
  | none => simp [CNode.linked, ht] at h
  | some hd => exact ⟨hd, rfl, by rw [linked_of_hold ht] at h; exact h⟩

theorem toks_mem {c : CNode K V} {cs : List (CNode K V)} (h : c ∈ cs) (hc : toks c ≠ []) : toksL cs ≠ [] := by
  obtain ⟨a, b, rfl⟩ := List.append_of_mem h
  simp [hc]

/-- A locked node belongs to a call under way. -/
theorem held_toks {n : Nat} : ∀ {h rt} {lo hi : Option K} {t : CNode K V} {hd}, WF n rt h lo hi t → t.hold = some hd → toks t ≠ []
  | 0, rt, lo, hi, .mk w rs kvs cs, hd, wf, hh => by
    simp at hh; subst hh
    have hl := wf_links wf
    obtain ⟨hcs, _⟩ := wf
    subst hcs
    obtain ⟨id, op, lk, m⟩ := hd
    cases m <;> simp [holdTok] <;> simp [Links, Mark.waits] at hl
  | h + 1, rt, lo, hi, .mk w rs kvs cs, hd, wf, hh => by
    simp at hh; subst hh
    have hl := wf_links wf
    simp only [Links] at hl
    split at hl
    · obtain ⟨ca, c, cb, ch, rfl, g1, _⟩ := hl
      obtain ⟨lo', hi', wc⟩ := forest_mem wf.1 (c := c) (by simp)
      have := held_toks wc g1
      simp [this]
    · rename_i hw
      obtain ⟨id, op, lk, m⟩ := hd
      cases m <;> simp [Mark.waits] at hw <;> simp [holdTok]

theorem idle_free {n h rt} {lo hi : Option K} {t : CNode K V} (wf : WF n rt h lo hi t) (ht : toks t = []) :
    t.Free ∧ ∀ g ∈ t.children, toks g = [] := by
  refine ⟨⟨?_, ?_⟩, ?_⟩
  · cases hh : t.hold with
    | none => rfl
    | some hd => exact absurd ht (held_toks wf hh)
  · cases t with
    | mk w rs kvs cs => simp at ht; simp [ht]
  · intro g hg
    cases t with
    | mk w rs kvs cs =>
      simp only [toks_mk, List.append_eq_nil_iff] at ht
      simp only [CNode.children_mk] at hg
      apply Classical.byContradiction
      intro hx
      exact toks_mem hg hx ht.2

theorem down_step {n rt h} {lo hi : Option K} {id : Nat} {op : Op K V} {lk rs} {kvs : List (K × V)} {cs}
    (wf : WF n rt h lo hi (.mk (some ⟨id, op, lk, .down⟩) rs kvs cs)) (hf : ∀ c ∈ cs, c.Free) :
    ∃ e t', CStep n (.mk (some ⟨id, op, lk, .down⟩) rs kvs cs) e t' := by
  have hm := (wf_lbl wf).2.2.2.1.2.2
  have hb := (wf_iff.1 wf).1
  have hdesc : ∀ h', h = h' + 1 → hit (opKey op) kvs = none → ∃ e t', CStep n (.mk (some ⟨id, op, lk, .down⟩) rs kvs cs) e t' := by
    intro h' hh' hn
    subst hh'
    obtain ⟨ks1, ks2, e1, e2, _⟩ := hit_none hn
    have hlen := body_length hb
    obtain ⟨ca, c, cb, rfl, hca⟩ := split_at (l := cs) (i := scan (opKey op) kvs) (by rw [← e2, hlen, e1]; simp; omega)
    have hcf := hf c (by simp)
    cases hs : safe n op c.count with
    | true => exact ⟨_, _, .descendRelease hn hca hcf hs⟩
    | false => exact ⟨_, _, .descend hn hca hcf hs⟩
  rcases hm with hm | hm
  · obtain ⟨item, hw⟩ : ∃ item, newItem op = some item := by
      cases op <;> simp [isCreate] at hm <;> exact ⟨_, rfl⟩
    cases hh : hit (opKey op) kvs with
    | some kv => exact ⟨_, _, .found hw hh⟩
    | none =>
      cases h with
      | zero =>
        have := hb.1
        subst this
        by_cases hx : (leafInsert item.1 (some item.2) kvs).length > maxValues n
        · exact ⟨_, _, .insertOver hw hh hx⟩
        · exact ⟨_, _, .insert hw hh hx⟩
      | succ h => exact hdesc h rfl hh
  · cases op <;> simp [isDelete] at hm
    rename_i k can
    cases hh : hit k kvs with
    | some kv =>
      cases ha : answer can kv with
      | false => exact ⟨_, _, .refused hh ha⟩
      | true =>
        cases h with
        | zero =>
          have := hb.1
          subst this
          by_cases hx : (kvs.eraseIdx (scan k kvs)).length < minValues n
          · exact ⟨_, _, .removeLeafUnder hh ha hx⟩
          · exact ⟨_, _, .removeLeaf hh ha hx⟩
        | succ h =>
          obtain ⟨ks1, ks2, e1, e2, _⟩ := hit_some hh
          have hlen := body_length hb
          obtain ⟨ca, c, cb, rfl, hca⟩ := split_at (l := cs) (i := scan k kvs) (by rw [← e2, hlen, e1]; simp; omega)
          cases cb with
          | nil => exfalso; rw [e1] at hlen; simp at hlen; omega
          | cons d cb =>
            by_cases hx : d.count > c.count
            · exact ⟨_, _, .swapRight hh ha hca (hf c (by simp)) (hf d (by simp)) hx⟩
            · exact ⟨_, _, .swapLeft hh ha hca (hf c (by simp)) (hf d (by simp)) hx⟩
    | none =>
      cases h with
      | zero =>
        have := hb.1
        subst this
        exact ⟨_, _, .missing hh⟩
      | succ h => exact hdesc h rfl hh

theorem swapDown_step {n rt h} {lo hi : Option K} {id : Nat} {op : Op K V} {lk rs} {kvs : List (K × V)} {cs kv} (hn2 : 2 ≤ n) (hrt : rt = false)
    (wf : WF n rt h lo hi (.mk (some ⟨id, op, lk, .swapDown kv⟩) rs kvs cs)) (hf : ∀ c ∈ cs, c.Free) :
    ∃ e t', CStep n (.mk (some ⟨id, op, lk, .swapDown kv⟩) rs kvs cs) e t' := by
  obtain ⟨_, hsz, hm, _⟩ := (wf_lbl wf).2
  have hb := (wf_iff.1 wf).1
  have hsz : SizeOk n rt h kvs.length := hsz
  have hlen := hsz.2.1 hrt
  have hdel := hm.2.1
  cases op <;> simp [isDelete] at hdel
  rename_i k can
  cases kvs with
  | nil => simp at hlen; omega
  | cons first rest =>
    cases hl : less first.1 kv.1 with
    | false =>
      cases h with
      | zero =>
        have := hb.1
        subst this
        by_cases hx : rest.length < minValues n
        · exact ⟨_, _, .takeFirstUnder hl hx⟩
        · exact ⟨_, _, .takeFirst hl hx⟩
      | succ h =>
        cases cs with
        | nil => exact hb.1.elim
        | cons c cb => exact ⟨_, _, .swapFirst rfl hl (hf c (by simp))⟩
    | true =>
      cases h with
      | zero =>
        have := hb.1
        subst this
        obtain ⟨ks, last, e⟩ := snoc_of_length (l := first :: rest) rfl
        have h1 : (ks ++ [last]).head? = some first := by rw [← e]; rfl
        rw [e]
        by_cases hx : ks.length < minValues n
        · exact ⟨_, _, .takeLastUnder h1 hl hx⟩
        · exact ⟨_, _, .takeLast h1 hl hx⟩
      | succ h =>
        obtain ⟨ca, c, rfl⟩ := snoc_of_length (body_length hb)
        exact ⟨_, _, .swapLast rfl hl (hf c (by simp))⟩

theorem waits_step {n rt h} {lo hi : Option K} {id : Nat} {op : Op K V} {lk rs m} {kvs : List (K × V)} {ca : List (CNode K V)} {c cb} (hn2 : 2 ≤ n)
    (wf : WF n rt h lo hi (.mk (some ⟨id, op, lk, m⟩) rs kvs (ca ++ c :: cb))) (hm : m.waits = true) (hcl : c.linked = true)
    (hfa : ∀ x ∈ ca, x.Free ∧ ∀ g ∈ x.children, g.Free) (hfb : ∀ x ∈ cb, x.Free ∧ ∀ g ∈ x.children, g.Free)
    (hc : (∃ e t', CStep n c e t') ∨ ((∀ g ∈ c.children, g.Free) ∧ ∃ hd out, c.hold = some hd ∧ (hd.mark = .over out ∨ hd.mark = .under out))) :
    ∃ e t', CStep n (.mk (some ⟨id, op, lk, m⟩) rs kvs (ca ++ c :: cb)) e t' := by
  have hlinks := wf_links wf
  obtain ⟨_, ⟨ch, q2, q3, q4, q5, q6⟩, u1, u2⟩ := links_at hlinks hcl
  rcases hc with ⟨e, c', hs⟩ | ⟨hg, hd, out, h1, h2⟩
  · cases h with
    | zero => simp [WF] at wf
    | succ h =>
      obtain ⟨lo', hi', wc⟩ := forest_mem wf.1 (c := c) (by simp)
      obtain ⟨hd, h1, h2⟩ := cstep_ok hn2 hs
      rw [q2] at h1; injection h1 with h1; subst h1
      have ok := h2 _ _ _ _ wc
      exact ⟨_, _, .inner hm q2 q3 (ok.id.trans q4) (ok.op.trans q5) hs⟩
  · rw [q2] at h1; injection h1 with h1; subst h1
    obtain ⟨cid, cop, clk, cm⟩ := ch
    simp only at q3 q4 q5 q6 h2
    subst q3; subst q4; subst q5
    rcases h2 with rfl | rfl
    · cases h with
      | zero => simp [WF] at wf
      | succ h =>
        have hks := wf_ks wf
        obtain ⟨ka, kb, rfl, e1, e2⟩ := forest_split wf.1
        have f := wf.1
        rw [forest_focus e1.symm] at f
        obtain ⟨b, hcnt, hu, hcr⟩ := (wf_done f.2.1).2 q2
        have hmk : m = .inChild := by
          have hmo := (wf_lbl wf).2.2.2.1
          have hnd := not_create_and_delete hcr
          cases m <;> simp [Mark.waits] at hm <;> simp [LinkOk, swapOf] at q6 <;> first | rfl | skip
          simp only [MarkOk] at hmo
          rw [hmo] at hnd; cases hnd
        subst hmk
        obtain ⟨x, hx⟩ : ∃ x, splitHalves n c.kvs c.children = some x := by
          have : n / 2 < c.kvs.length := by have : c.kvs.length = n + 1 := hcnt; omega
          simp only [splitHalves, max_eq, List.getElem?_eq_getElem this]
          exact ⟨_, rfl⟩
        obtain ⟨kv, l, r⟩ := x
        have hfb' : ∀ x ∈ cb, x.Free := fun x hx => (hfb x hx).1
        by_cases hy : (insertHalves (ka ++ kb) (ca ++ c :: cb) kv l r).1.length > maxValues n
        · exact ⟨_, _, .splitOver q2 hfb' hx hy⟩
        · exact ⟨_, _, .split q2 hfb' hx hy⟩
    · cases h with
      | zero => simp [WF] at wf
      | succ h =>
        obtain ⟨r1, r2, r3, r4, r5, r6⟩ := rebalance_frame wf q2
        obtain ⟨ka, kb, rfl, e1, e2⟩ := forest_split wf.1
        have f := wf.1
        rw [forest_focus e1.symm] at f
        obtain ⟨b, hcnt, hu, hcr⟩ := (wf_done f.2.1).1 q2
        have hidx : rebalanceIndex m ca.length = ca.length := by
          cases m <;> simp [Mark.waits] at hm <;> simp [LinkOk, swapOf] at q6 <;> simp only [rebalanceIndex]
          rename_i j
          rcases q6 with q6 | q6
          · exact q6.symm
          · omega
        have hneb : ∀ x, x ∈ ca ∨ x ∈ cb → x.Free ∧ n / 2 ≤ x.count := by
          intro x hx
          have hfx : x.Free := hx.elim (fun h => (hfa x h).1) (fun h => (hfb x h).1)
          obtain ⟨lo', hi', wx⟩ := forest_mem wf.1 (c := x) (by rcases hx with hx | hx <;> simp [hx])
          exact ⟨hfx, (wf_free wx hfx).2.2.1.2.1 rfl⟩
        -- the left neighbour
        have hleft : (∀ d cb', cb = d :: cb' → ¬ d.count > minValues n) → ca ≠ [] → ∃ e t', CStep n (.mk (some ⟨cid, cop, lk, m⟩) rs (ka ++ kb) (ca ++ c :: cb)) e t' := by
          intro hnd hne
          obtain ⟨ca', b', rfl⟩ : ∃ ca' b', ca = ca' ++ [b'] := by
            cases hl : ca.length with
            | zero => exact absurd (List.length_eq_zero_iff.1 hl) hne
            | succ i => exact snoc_of_length hl
          obtain ⟨ka', kv, rfl⟩ : ∃ ka' kv, ka = ka' ++ [kv] := snoc_of_length (n := ca'.length) (by simp at e1; omega)
          have hl : ca'.length = ka'.length := by simp at e1; omega
          have hi' : rebalanceIndex m (ca'.length + 1) = ca'.length + 1 := by simpa using hidx
          have ek : ka' ++ [kv] ++ kb = ka' ++ kv :: kb := by simp
          have ec : ca' ++ [b'] ++ c :: cb = ca' ++ b' :: c :: cb := by simp
          rw [ek, ec]
          obtain ⟨hbf, hbc⟩ := hneb b' (by simp)
          by_cases hs : b'.count > minValues n
          · obtain ⟨lkv, hlk⟩ : ∃ lkv, b'.kvs.getLast? = some lkv := by
              cases hx : b'.kvs.getLast? with
              | some y => exact ⟨y, rfl⟩
              | none =>
                simp at hx
                have h0 : b'.count = 0 := by simp [CNode.count, hx]
                omega
            exact ⟨_, _, .rotateRight hm q2 hl hi' hbf (fun d cb' hd => ⟨(hfb d (by simp [hd])).1, hnd d cb' hd⟩) hs hlk⟩
          · by_cases hu : (ka' ++ kb).length < minValues n
            · exact ⟨_, _, .mergeLeftUnder hm q2 hl hi' hbf (fun x hx => (hfb x hx).1) hg hs hnd hu⟩
            · exact ⟨_, _, .mergeLeft hm q2 hl hi' hbf (fun x hx => (hfb x hx).1) hg hs hnd hu⟩
        have hcount : 1 ≤ (ka ++ kb).length := by
          cases rt with
          | true => exact r2.2.2 rfl (by omega)
          | false => have := r2.2.1 rfl; omega
        cases cb with
        | nil =>
          refine hleft (by simp) ?_
          rintro rfl
          simp at hcount e1 e2
          subst e1; subst e2
          simp at hcount
        | cons d cb =>
          cases kb with
          | nil => simp at e2
          | cons kv kb =>
            obtain ⟨hdf, hdc⟩ := hneb d (by simp)
            by_cases hs : d.count > minValues n
            · obtain ⟨rkv, rkvs, hk⟩ : ∃ rkv rkvs, d.kvs = rkv :: rkvs := by
                cases hx : d.kvs with
                | cons y ys => exact ⟨y, ys, rfl⟩
                | nil =>
                  have h0 : d.count = 0 := by simp [CNode.count, hx]
                  omega
              refine ⟨_, _, .rotateLeft hm q2 e1.symm hidx ?_ hdf ?_ hs hk⟩
              · intro b' ca' hb'; exact (hfa b' (by simp [hb'])).1
              · intro g gs hgs; exact (hfb d (by simp)).2 g (by simp [hgs])
            · by_cases hne : ca = []
              · subst hne
                simp at e1; subst e1
                by_cases hu : kb.length < minValues n
                · exact ⟨_, _, .mergeRightUnder hm q2 hidx hdf (fun x hx => (hfb x (by simp [hx])).1) (hfb d (by simp)).2 hs hu⟩
                · exact ⟨_, _, .mergeRight hm q2 hidx hdf (fun x hx => (hfb x (by simp [hx])).1) (hfb d (by simp)).2 hs hu⟩
              · refine hleft ?_ hne
                rintro d' cb' hd'
                injection hd' with hd' _
                subst hd'; exact hs

/-- What a call can do in a subtree in which calls are under way. -/
def Can (n : Nat) (t : CNode K V) : Prop :=
  (∃ e t', NStep n t e t') ∨ (t.linked = true ∧ ((∃ e t', CStep n t e t') ∨
    ((∀ g ∈ t.children, g.Free) ∧ ∃ hd out, t.hold = some hd ∧ (hd.mark = .over out ∨ hd.mark = .under out))))

theorem can_chain {n} {t : CNode K V} {hd} (hh : t.hold = some hd) (hs : ∃ e t', CStep n t e t') : Can n t := by
  obtain ⟨e, t', hs⟩ := hs
  cases hl : hd.linked with
  | false => exact .inl ⟨e, t', .chain hh hl hs⟩
  | true => exact .inr ⟨by rw [linked_of_hold hh]; exact hl, .inl ⟨e, t', hs⟩⟩

/-- While a call is under way in a subtree, some call there can move, or the call that also holds the node above has
brought its work up to this node. -/
theorem progress {n} (hn2 : 2 ≤ n) : ∀ {h rt} {lo hi : Option K} {t : CNode K V}, WF n rt h lo hi t →
    (rt = true → ∀ hd, t.hold = some hd → swapOf hd.mark = none) → toks t ≠ [] → Can n t := by
  intro h
  induction h with
  | zero =>
    intro rt lo hi t wf hrt ht
    obtain ⟨w, rs, kvs, cs⟩ := t
    have hb := (wf_iff.1 wf).1
    have hcs := hb.1
    subst hcs
    cases w with
    | none =>
      cases rs with
      | nil => simp [holdTok] at ht
      | cons r rs =>
        obtain ⟨id, op⟩ := r
        have hr := (reader_free (ra := []) wf).2.2.2.2.1
        have hsw : startsWriting op = false := by cases op <;> simp_all [isRead, startsWriting]
        cases hh : hit (opKey op) kvs with
        | some kv => exact .inl ⟨_, _, .readHit (ra := []) (by assumption) hh⟩
        | none =>
          cases op <;> simp [isRead] at hr
          · exact .inl ⟨_, _, .readAgain (ra := []) hh⟩
          · exact .inl ⟨_, _, .readMiss (ra := []) hh⟩
    | some hd =>
      obtain ⟨id, op, lk, m⟩ := hd
      have hl := wf_links wf
      cases m with
      | down => exact can_chain rfl (down_step wf (by simp))
      | swapDown kv =>
        refine can_chain rfl (swapDown_step hn2 ?_ wf (by simp))
        cases rt with
        | false => rfl
        | true => have := hrt rfl _ rfl; simp [swapOf] at this
      | inChild => simp [Links, Mark.waits] at hl
      | swapIn => simp [Links, Mark.waits] at hl
      | swapped => simp [Links, Mark.waits] at hl
      | inSwap => simp [Links, Mark.waits] at hl
      | over out =>
        obtain ⟨_, h1, h2, h3⟩ := (wf_lbl wf).2
        cases lk with
        | true => exact .inr ⟨rfl, .inr ⟨by simp, _, out, rfl, .inl rfl⟩⟩
        | false =>
          have h4 := (h3 rfl).1
          have h2 : isCreate op = true := h2
          rw [safe_create h2] at h4
          simp only [MarkSize] at h1
          omega
      | under out =>
        obtain ⟨_, h1, h2, h3⟩ := (wf_lbl wf).2
        cases lk with
        | true => exact .inr ⟨rfl, .inr ⟨by simp, _, out, rfl, .inr rfl⟩⟩
        | false =>
          have h4 := (h3 rfl).1
          have h2 : isDelete op = true := h2
          rw [safe_delete h2] at h4
          simp only [MarkSize] at h1
          split at h1 <;> omega
  | succ h ih =>
    intro rt lo hi t wf hrt ht
    obtain ⟨w, rs, kvs, cs⟩ := t
    by_cases hbusy : ∃ z ∈ cs, ∃ e z', NStep n z e z'
    · obtain ⟨z, hz, e, z', hs⟩ := hbusy
      obtain ⟨ca, cb, rfl⟩ := List.append_of_mem hz
      exact .inl ⟨_, _, .child hs⟩
    · have hidle : ∀ z ∈ cs, z.linked = false → toks z = [] := by
        intro z hz hzl
        apply Classical.byContradiction
        intro hx
        obtain ⟨lo', hi', wz⟩ := forest_mem wf.1 hz
        rcases ih wz (fun hx => by cases hx) hx with ⟨e, z', hs⟩ | ⟨hl, _⟩
        · exact hbusy ⟨z, hz, e, z', hs⟩
        · rw [hzl] at hl; cases hl
      have hfree : ∀ z ∈ cs, z.linked = false → z.Free ∧ ∀ g ∈ z.children, g.Free := by
        intro z hz hzl
        obtain ⟨lo', hi', wz⟩ := forest_mem wf.1 hz
        obtain ⟨f1, f2⟩ := idle_free wz (hidle z hz hzl)
        refine ⟨f1, ?_⟩
        intro g hg
        obtain ⟨_, bz, _, _⟩ := wf_free wz f1
        cases h with
        | zero => rw [bz.1] at hg; simp at hg
        | succ h =>
          obtain ⟨lo'', hi'', wg⟩ := forest_mem bz.1 hg
          exact (idle_free wg (f2 g hg)).1
      have hb := (wf_iff.1 wf).1
      have hl := wf_links wf
      cases w with
      | none =>
        have hfr : ∀ z ∈ cs, z.Free := fun z hz => (hfree z hz (hl z hz)).1
        have htl : toksL cs = [] := by
          apply Classical.byContradiction
          intro hx
          have : ∀ l : List (CNode K V), (∀ z ∈ l, toks z = []) → toksL l = [] := by
            intro l hl'
            induction l with
            | nil => simp
            | cons a l ihl => simp [hl' a (by simp), ihl (fun z hz => hl' z (by simp [hz]))]
          exact hx (this cs (fun z hz => hidle z hz (hl z hz)))
        cases rs with
        | nil => simp [holdTok, htl] at ht
        | cons r rs =>
          obtain ⟨id, op⟩ := r
          have hsw : startsWriting op = false := by
            have hr := (reader_free (ra := []) wf).2.2.2.2.1
            cases op <;> simp_all [isRead, startsWriting]
          cases hh : hit (opKey op) kvs with
          | some kv => exact .inl ⟨_, _, .readHit (ra := []) (by assumption) hh⟩
          | none =>
            obtain ⟨ks1, ks2, e1, e2, _⟩ := hit_none hh
            have hlen := body_length hb
            obtain ⟨ca, c, cb, rfl, hca⟩ := split_at (l := cs) (i := scan (opKey op) kvs) (by rw [← e2, hlen, e1]; simp; omega)
            exact .inl ⟨_, _, .readDown (ra := []) (by assumption) hh hca (hfr c (by simp)).1⟩
      | some hd =>
        obtain ⟨id, op, lk, m⟩ := hd
        have hwaits : m.waits = true → Can n (.mk (some ⟨id, op, lk, m⟩) rs kvs cs) := by
          intro hw
          have hl' := hl
          simp only [Links] at hl'
          have hl' := (if_pos hw).mp hl'
          obtain ⟨ca, c, cb, ch, rfl, g1, g2, g3, g4, g5, g6, g7⟩ := hl'
          have hcl : c.linked = true := by rw [linked_of_hold g1]; exact g2
          refine can_chain rfl (waits_step hn2 wf hw hcl ?_ ?_ ?_)
          · intro x hx; exact hfree x (by simp [hx]) (g6 x hx)
          · intro x hx; exact hfree x (by simp [hx]) (g7 x hx)
          · obtain ⟨lo', hi', wc⟩ := forest_mem wf.1 (c := c) (by simp)
            rcases ih wc (fun hx => by cases hx) (held_toks wc g1) with ⟨e, c', hs⟩ | ⟨_, hx⟩
            · exact absurd ⟨c, by simp, e, c', hs⟩ hbusy
            · exact hx
        cases m with
        | down => exact can_chain rfl (down_step wf (fun z hz => (hfree z hz (links_unlinked hl rfl z hz)).1))
        | swapDown kv =>
          refine can_chain rfl (swapDown_step hn2 ?_ wf (fun z hz => (hfree z hz (links_unlinked hl rfl z hz)).1))
          cases rt with
          | false => rfl
          | true => have := hrt rfl _ rfl; simp [swapOf] at this
        | inChild => exact hwaits rfl
        | swapIn => exact hwaits rfl
        | swapped => exact hwaits rfl
        | inSwap => exact hwaits rfl
        | over out =>
          obtain ⟨_, h1, h2, h3⟩ := (wf_lbl wf).2
          cases lk with
          | true => exact .inr ⟨rfl, .inr ⟨fun z hz => (hfree z hz (links_unlinked hl rfl z hz)).1, _, out, rfl, .inl rfl⟩⟩
          | false =>
            have h4 := (h3 rfl).1
            have h2 : isCreate op = true := h2
            rw [safe_create h2] at h4
            simp only [MarkSize] at h1
            omega
        | under out =>
          obtain ⟨_, h1, h2, h3⟩ := (wf_lbl wf).2
          cases lk with
          | true => exact .inr ⟨rfl, .inr ⟨fun z hz => (hfree z hz (links_unlinked hl rfl z hz)).1, _, out, rfl, .inr rfl⟩⟩
          | false =>
            have h4 := (h3 rfl).1
            have h2 : isDelete op = true := h2
            rw [safe_delete h2] at h4
            simp only [MarkSize] at h1
            split at h1 <;> omega

/-- Nobody gets the tree's lock shared while a call waits for it to write. -/
def Polite (s s' : St K V) : Prop := (∃ x ∈ s.waiting, x.2.2 = true) → s'.readers.length ≤ s.readers.length

macro "polite" : tactic => `(tactic| (intro _; simp [settle_readers, *]))

/-- While a call is under way some step without an event, or a return, is possible. -/
theorem step_possible_polite {n} (hn2 : 2 ≤ n) {s : St K V} (inv : Inv n s) (ht : stoks s ≠ []) :
    (∃ s', Step n s none s' ∧ Polite s s') ∨ ∃ id op out s', Step n s (some (.ret id op out)) s' := by
  cases hfin : s.finished with
  | cons f fs =>
    obtain ⟨id, op, out⟩ := f
    exact .inr ⟨id, op, out, _, .ret (fa := []) (by rw [hfin]; rfl)⟩
  | nil =>
    left
    -- the root first
    have hroot : ∀ r, s.root = some r → toks r ≠ [] → ∃ s', Step n s none s' ∧ Polite s s' := by
      intro r hr htk
      obtain ⟨h, wf⟩ := inv.tree r hr
      have hlock := inv.lock
      rcases Classical.em (r.linked = true) with hl | hl
      · -- the call holds the tree's lock as well
        have : ∃ hd ch, s.hold = some hd ∧ hd.mark = .inChild ∧ hd.linked = false ∧ r.hold = some ch ∧ ch.linked = true ∧ ch.id = hd.id ∧ ch.op = hd.op ∧ swapOf ch.mark = none := by
          cases hh : s.hold with
          | none => rw [hh] at hlock; have := hlock r hr; rw [hl] at this; cases this
          | some hd =>
            rw [hh] at hlock
            rcases hlock.2 with ⟨_, _, c⟩ | ⟨a, r0, ch, q1, q2, q3, q4, q5, q6⟩
            · have := c r hr; rw [hl] at this; cases this
            · rw [hr] at q1; injection q1 with q1; subst q1
              exact ⟨hd, ch, rfl, a, hlock.1, q2, q3, q4, q5, q6⟩
        obtain ⟨hd, ch, g1, g2, g3, g4, g5, g6, g7, g8⟩ := this
        obtain ⟨id, op, lk, m⟩ := hd
        simp only at g2 g3 g6 g7
        subst g2; subst g3; subst g6; subst g7
        rcases progress hn2 wf (fun _ hd hhd => by rw [g4] at hhd; injection hhd with hhd; subst hhd; exact g8) htk with ⟨e, r', hs⟩ | ⟨_, ⟨e, r', hs⟩ | ⟨_, hd, out, h1, h2⟩⟩
        · exact ⟨_, .node hr hs, by polite⟩
        · obtain ⟨hd, h1, h2⟩ := cstep_ok hn2 hs
          rw [g4] at h1; injection h1 with h1; subst h1
          have ok := h2 _ _ _ _ wf
          exact ⟨_, .inner g1 hr g4 g5 ok.id ok.op hs, by polite⟩
        · rw [g4] at h1; injection h1 with h1; subst h1
          obtain ⟨cid, cop, clk, cm⟩ := ch
          simp only at g5 h2
          subst g5
          rcases h2 with rfl | rfl
          · have hcnt : r.kvs.length = n + 1 := by
              cases r with
              | mk w rs kvs cs =>
                simp at g4; subst g4
                have := (wf_lbl wf).2.2.1; simpa [MarkSize] using this
            obtain ⟨x, hx⟩ : ∃ x, splitHalves n r.kvs r.children = some x := by
              have : n / 2 < r.kvs.length := by omega
              simp only [splitHalves, max_eq, List.getElem?_eq_getElem this]
              exact ⟨_, rfl⟩
            obtain ⟨kv, l, rt⟩ := x
            exact ⟨_, .grow g1 hr g4 hx, by polite⟩
          · exact ⟨_, .shrink g1 hr g4, by polite⟩
      · have hl : r.linked = false := by simpa using hl
        rcases progress hn2 wf (fun _ hd hhd => by
          cases hx : swapOf hd.mark with
          | none => rfl
          | some kv => exact (unlinked_swap wf hl hhd hx).elim) htk with ⟨e, r', hs⟩ | ⟨hx, _⟩
        · exact ⟨_, .node hr hs, by polite⟩
        · rw [hl] at hx; cases hx
    have hfreeRoot : ∀ r, s.root = some r → (¬ ∃ s', Step n s none s' ∧ Polite s s') → r.Free := by
      intro r hr hno
      obtain ⟨h, wf⟩ := inv.tree r hr
      refine (idle_free wf ?_).1
      apply Classical.byContradiction
      intro hx; exact hno (hroot r hr hx)
    apply Classical.byContradiction
    intro hno
    -- the tree's lock
    have hnoroot : rootToks s.root = [] := by
      cases hr : s.root with
      | none => rfl
      | some r =>
        apply Classical.byContradiction
        intro hx; exact hno (hroot r hr hx)
    cases hrd : s.readers with
    | cons r rs =>
      obtain ⟨id, op⟩ := r
      have hread := inv.reading (id, op) (by rw [hrd]; simp)
      cases hr : s.root with
      | some r => exact hno ⟨_, .renter (ra := []) (by rw [hrd]; rfl) hr (hfreeRoot r hr hno).1, by polite⟩
      | none =>
        cases op <;> simp [isRead] at hread
        · exact hno ⟨_, .againEmpty (ra := []) (by rw [hrd]; rfl) hr, by polite⟩
        · exact hno ⟨_, .findEmpty (ra := []) (by rw [hrd]; rfl) hr, by polite⟩
    | nil =>
      cases hh : s.hold with
      | some hd =>
        have hlock := inv.lock
        rw [hh] at hlock
        obtain ⟨id, op, lk, m⟩ := hd
        rcases hlock with ⟨h1, ⟨h2, h3, h4⟩ | ⟨h2, r, ch, h3, h4, _⟩⟩
        · simp only at h1 h2 h3
          subst h1; subst h2
          rcases h3 with h3 | h3
          · obtain ⟨item, hw⟩ : ∃ item, newItem op = some item := by
              cases op <;> simp [isCreate] at h3 <;> exact ⟨_, rfl⟩
            refine hno ⟨_, .enterCreate hw hh ?_, by polite⟩
            cases hr : s.root with
            | none => exact ⟨rfl, rfl⟩
            | some r => exact hfreeRoot r hr hno
          · cases op <;> simp [isDelete] at h3
            cases hr : s.root with
            | none => exact hno ⟨_, .deleteEmpty hh hr, by polite⟩
            | some r => exact hno ⟨_, .enterDelete hh hr (hfreeRoot r hr hno), by polite⟩
        · obtain ⟨h, wf⟩ := inv.tree r h3
          exact hno (hroot r h3 (held_toks wf h4))
      | none =>
        rcases Classical.em (∃ x ∈ s.waiting, x.2.2 = true) with ⟨⟨id, op, b⟩, hx, hb⟩ | hx
        · simp only at hb
          subst hb
          obtain ⟨wa, wb, hw⟩ := List.append_of_mem hx
          exact hno ⟨_, .lock hw hh hrd, by polite⟩
        cases hw : s.waiting with
        | cons w ws =>
          obtain ⟨id, op, b⟩ := w
          cases b with
          | true => exact hx ⟨_, by rw [hw]; exact .head _, rfl⟩
          | false => exact hno ⟨_, .rlock (wa := []) (by rw [hw]; rfl) hh, fun h => (hx h).elim⟩
        | nil =>
          apply ht
          simp [stoks, hw, hh, hrd, hfin, hnoroot, holdTok]

theorem step_possible {n} (hn2 : 2 ≤ n) {s : St K V} (inv : Inv n s) (ht : stoks s ≠ []) :
    (∃ s', Step n s none s') ∨ ∃ id op out s', Step n s (some (.ret id op out)) s' :=
  (step_possible_polite hn2 inv ht).imp (fun ⟨s', h, _⟩ => ⟨s', h⟩) id

end Willow.BTreeConc
