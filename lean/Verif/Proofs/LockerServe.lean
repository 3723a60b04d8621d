import Verif.Spec.LockerServe
import Verif.Proofs.LockerStop
namespace Willow.Locker
open Willow.LockerSpec

section
variable {acc : Int → Prop} {s s' : St}

theorem Moves.mu (g : Good acc s) (hd : s.down = false) (h : Moves acc s s') : mu s' < mu s :=
  mu_step g h.1.1 (h.2.trans hd.symm) h.1.2.1 h.1.2.2

theorem Serves.moves (h : Serves acc s s') : Moves acc s s' := ⟨h.1.1, h.2⟩

theorem moves_path (g : Good acc s) (hd : s.down = false) {n : Nat} (h : Path (Moves acc) s n) : n ≤ mu s := by
  induction h with
  | nil => exact Nat.zero_le _
  | cons hg _ ih =>
    have := Moves.mu g hd hg
    have := ih (g.step hg.1.1) hg.2
    omega

theorem serve_blocked (hpos : ∀ x, acc x → 0 < x) (hr : Reach acc {} s) (hd : s.down = false) (hb : ∀ s', ¬ Serves acc s s') :
    AllServed s ∨ Stale s := by
  have g := good_of_reach hr
  have i4 := inv4_of_reach hr
  have hnp := no_panic hpos (Good.init acc) hr (by simp)
  have nb : ∀ s', Step acc s s' → asked s' = asked s → disconnected s' = disconnected s → s'.down = s.down → s'.threads ≠ s.threads → False :=
    fun s' h1 h2 h3 h5 h4 => hb s' ⟨⟨⟨h1, h2, ne_threads h4⟩, h3⟩, h5.trans hd⟩
  cases htree : s.tree with
  | none =>
    left
    have hl : live s.tr = [] := by rw [g.lv, liveSt, htree]
    refine ⟨?_, htree, hl⟩
    have hall : ∀ t ∈ s.threads, ∃ l x, t = .relFound l x := fun t hm => by
      have := g.i1.refs _ hm
      rw [htree] at this
      cases t <;> simp [refOk] at this
      exact ⟨_, _, rfl⟩
    have hf : free s.threads := fun t hm => by obtain ⟨l, x, rfl⟩ := hall t hm; exact ⟨rfl, rfl⟩
    apply Classical.byContradiction
    intro hne
    obtain ⟨t, hm⟩ := List.exists_mem_of_ne_nil _ hne
    obtain ⟨pre, post, e⟩ := List.append_of_mem hm
    obtain ⟨l, x, rfl⟩ := hall t hm
    exact nb _ (.relGone s pre post l x e (free_sub e hf) htree) (by cntr e) (by cntr e) rfl
      (by simp [e, St.thr, St.log])
  | some l =>
    have hdn := g.i3.down l
    rw [hd] at hdn
    have hal : alive (s.objs l).phase = true := by
      cases h : alive (s.objs l).phase with
      | true => rfl
      | false => exact absurd (hdn (.inl ⟨htree, h⟩)) (by simp)
    have hdo : downOnly (s.objs l).phase = false := by
      cases h : downOnly (s.objs l).phase with
      | false => rfl
      | true => exact absurd (hdn (.inr h)) (by simp)
    cases hp : (s.objs l).phase with
    | absent => rw [hp] at hal; cases hal
    | exited => rw [hp] at hal; cases hal
    | stuck => exact absurd hp (g.i1.notStuck l)
    | panicked => exact absurd hp (hnp l)
    | notRunning => rw [hp] at hdo; cases hdo
    | ctxWait => rw [hp] at hdo; cases hdo
    | ctxReply b => rw [hp] at hdo; cases hdo
    | held =>
      exfalso
      cases hx : (s.objs l).session with
      | some x =>
        have ha := g.i3.armedI l (by rw [hp]; rfl) (by simp [hx])
        exact nb _ (.tick s l hp ha) (by simp [asked, unanswered, answers, St.upd, St.thr, St.log, List.countP_cons, forClient, isAnswer])
          (by simp [disconnected, St.upd, St.thr, St.log, List.countP_cons, isGone, isLeft]) rfl (by simp [St.thr, St.log, St.upd])
      | none =>
        have hbd := g.i3.bdI l (by rw [hp]; rfl) hx
        have h1 := g.i1.toN l
        rw [if_pos (.inl hbd)] at h1
        obtain ⟨t, hm, ht⟩ := List.countP_pos_iff.mp (by rw [h1]; exact Nat.one_pos : 0 < s.threads.countP (isTo l))
        obtain ⟨pre, post, e⟩ := List.append_of_mem hm
        cases t <;> simp [isTo] at ht
        case toIn => subst ht; exact nb _ (.toSend s pre post _ e hp) (by cntr e) (by cntr e) rfl (by simp [e, St.thr, St.upd])
        subst ht
        rcases free_or_holder s.threads with hf | ⟨t, hm', hh⟩
        · exact (nb _ (.toEnter s pre post _ _ e (free_sub e hf) htree) (by cntr e) (by cntr e) rfl (by simp [e, St.thr])).elim
        · obtain ⟨pre, post, e⟩ := List.append_of_mem hm'
          rcases holder_cases g htree hm' hh with ⟨l0, rfl⟩ | ⟨x, rfl⟩ | ⟨x, rfl⟩ | rfl | h
          · exact nb _ (.lostHeld s pre post _ _ e hp) (by cntr e) (by cntr e) rfl (by simp [e, St.thr, St.upd])
          · refine nb _ (.relSend s pre post _ _ e hp) ?_ ?_ ?_ ?_ <;> split <;> first | rfl | cntr e | simp [e, St.thr, St.upd, St.log]
          · refine nb _ (.hbSend s pre post _ _ e hp) ?_ ?_ ?_ ?_ <;> split <;> first | rfl | cntr e | simp [e, St.thr, St.upd, St.log]
          · exact nb _ (.toSend s pre post _ e hp) (by cntr e) (by cntr e) rfl (by simp [e, St.thr, St.upd])
          · rw [hp] at h; simp [isReply] at h
    | claiming =>
      have h1 := g.i1.claimedN l
      rw [if_pos hp] at h1
      obtain ⟨t, hm, ht⟩ := List.countP_pos_iff.mp (by rw [h1]; exact Nat.one_pos : 0 < s.threads.countP (isClaimed l))
      obtain ⟨pre, post, e⟩ := List.append_of_mem hm
      cases t <;> simp [isClaimed] at ht
      subst ht
      obtain ⟨x, hx⟩ := exists_fresh s.tr
      exact (nb _ (.claimDone s pre post _ _ x e hp hx) (by cntr e) (by cntr e) rfl (by simp [e, St.thr, St.log])).elim
    | outerReply b =>
      obtain ⟨pre, l0, post, e⟩ := resp_lv (l := l) g (by rw [hp]; rfl)
      exact (nb _ (.lostOuterReply s pre post l0 l b e hp) (by cntr e) (by cntr e) rfl (by simp [e, St.thr, St.log, St.drop])).elim
    | heldReply =>
      obtain ⟨pre, l0, post, e⟩ := resp_lv (l := l) g (by rw [hp]; rfl)
      exact (nb _ (.lostHeldReply s pre post l0 l e hp) (by cntr e) (by cntr e) rfl (by simp [e, St.thr, St.log])).elim
    | hbReply b =>
      obtain ⟨pre, x, post, e⟩ := resp_hb (l := l) g hp
      exact (nb _ (.hbAnswer s pre post l x b e hp) (by cases b <;> cntr e) (by cases b <;> cntr e) rfl
        (by simp [e, St.thr, St.log])).elim
    | relReply c =>
      obtain ⟨pre, x, post, e⟩ := resp_rel (l := l) g hp
      exact (nb _ (.relAnswer s pre post l x c e hp) (by cases c <;> cntr e) (by cases c <;> cntr e) rfl
        (by simp [e, St.thr, St.log, St.drop])).elim
    | toReply b =>
      obtain ⟨pre, post, e⟩ := resp_to (l := l) g (by rw [hp]; rfl)
      exact (nb _ (.toAnswer s pre post l b e hp) (by cntr e) (by cntr e) rfl (by simp [e, St.thr, St.log, St.drop])).elim
    | outer =>
      right
      have hnto : ∀ l', .toIn l' ∉ s.threads := fun l' hm => by
        have href := g.i1.refs _ hm
        rw [htree] at href
        cases href
        have h1 := g.i1.toN l
        have h2 : 0 < s.threads.countP (isTo l) := List.countP_pos_iff.mpr ⟨_, hm, by simp [isTo]⟩
        rw [h1] at h2
        split at h2
        · rename_i h; rcases h with h | h
          · have := (g.i1.bd _ h).1; rw [hp] at this; simp [inner] at this
          · rw [hp] at h; cases h
        · omega
      have hnlv : ∀ l0, .leavingIn l0 l ∉ s.threads := fun l0 hm => by
        obtain ⟨pre, post, e⟩ := List.append_of_mem hm
        exact nb _ (.lostOuter s pre post l0 l e hp) (by cntr e) (by cntr e) rfl (by simp [e, St.thr, St.upd])
      have hin : (∃ t ∈ s.threads, t.holdsW = true ∨ t.holdsR = true) → ∃ t ∈ s.threads, insideLock l t = true := by
        rintro ⟨t, hm', hh⟩
        refine ⟨t, hm', ?_⟩
        rcases holder_cases g htree hm' hh with ⟨l0, rfl⟩ | ⟨x, rfl⟩ | ⟨x, rfl⟩ | rfl | h
        · exact absurd hm' (hnlv _)
        · simp [insideLock]
        · simp [insideLock]
        · exact absurd hm' (hnto _)
        · rw [hp] at h; simp [isReply] at h
      have hc := i4.outerC l hp
      rw [g.i1.cnt l (by rw [hp]; rfl), hp] at hc
      obtain ⟨t, hm, ht⟩ := List.countP_pos_iff.mp (by simp only [hold] at hc; omega : 0 < s.threads.countP (pend l))
      obtain ⟨pre, post, e⟩ := List.append_of_mem hm
      cases t <;> simp [pend] at ht <;> subst ht
      case waiting =>
        exact (nb _ (.claimSend s pre post _ _ e hp) (by cntr e) (by cntr e) rfl (by simp [e, St.thr, St.upd])).elim
      case leaving =>
        rcases free_or_holder s.threads with hf | hh
        · exact (nb _ (.leaveEnter s pre post _ _ e (free_sub e hf) htree) (by cntr e) (by cntr e) rfl (by simp [e, St.thr])).elim
        · exact ⟨_, htree, hin hh, ⟨_, hm, rfl⟩, live_nil g htree (by rw [hp]; rfl)⟩
      case leavingIn l' =>
        have href := g.i1.refs _ hm
        obtain ⟨rfl, _⟩ := href
        exact absurd hm (hnlv _)

/-- The number of clients served and of those that still wait stays the same. -/
theorem wanting_step (g : Good acc s) (hd : s.down = false) (h : Serves acc s s') :
    wanting s' + (grants s'.tr).length = wanting s + (grants s.tr).length := by
  obtain ⟨⟨⟨hs, ha, -⟩, hdc⟩, hd'⟩ := h
  cases hs
  case shutdown => cases hd'
  case obtainFind => simp [asked, unanswered, answers, St.upd, St.thr, List.countP_cons, forClient] at ha
  case obtainCreate => simp [asked, unanswered, answers, St.upd, St.thr, List.countP_cons, forClient] at ha
  case disconnect e => simp [disconnected, St.thr, e, List.countP_append, List.countP_cons, isGone] at hdc
  case obtainClosed pre post l i e hp =>
    have href := g.i1.refs (.waiting l i) (by rw [e]; simp)
    have := g.i3.down l (.inl ⟨href, by rw [hp]; rfl⟩)
    rw [hd] at this; cases this
  case hbSend e _ => split <;> simp [wanting, e, St.thr, St.upd, St.log, List.countP_append, List.countP_cons, wants, grants]
  case relSend e _ => split <;> simp [wanting, e, St.thr, St.upd, St.log, List.countP_append, List.countP_cons, wants, grants]
  case hbAnswer b e _ => cases b <;> simp [wanting, e, St.thr, St.upd, St.log, List.countP_append, List.countP_cons, wants, grants]
  case relAnswer c e _ => cases c <;> simp [wanting, e, St.thr, St.upd, St.log, St.drop, List.countP_append, List.countP_cons, wants, grants]
  all_goals first
    | (rename_i e _ _; simp [wanting, e, St.thr, St.upd, St.log, St.drop, List.countP_append, List.countP_cons, wants, grants]; try omega; done)
    | (rename_i e _; simp [wanting, e, St.thr, St.upd, St.log, St.drop, List.countP_append, List.countP_cons, wants, grants]; try omega; done)
    | (simp [wanting, St.thr, St.upd, St.log, St.drop, List.countP_append, List.countP_cons, wants, grants]; try omega; done)

/-- No event is forgotten. -/
theorem tr_grows (hs : Step acc s s') : ∃ es, s'.tr = es ++ s.tr := by
  cases hs <;> (try split) <;> first | exact ⟨[], rfl⟩ | exact ⟨[_], rfl⟩

/-- If nobody is going away, nobody is afterwards. -/
theorem gone_step (h : Works acc s s') (h0 : ∀ t ∈ s.threads, isGone t = false) : ∀ t ∈ s'.threads, isGone t = false := by
  obtain ⟨es, e⟩ := tr_grows h.1.1
  have h1 := h.2
  have h2 : s.threads.countP isGone = 0 := List.countP_eq_zero.mpr (by simpa using h0)
  simp only [disconnected, e, List.countP_append, h2] at h1
  have h3 : s'.threads.countP isGone = 0 := by omega
  simpa using List.countP_eq_zero.mp h3

theorem served_facts (hr : Reach acc {} s) (hd : s.down = false) (h : Served acc s s') :
    Reach acc {} s' ∧ s'.down = false ∧ asked s' = asked s ∧ wanting s' + (grants s'.tr).length = wanting s + (grants s.tr).length ∧
      ((∀ t ∈ s.threads, isGone t = false) → ∀ t ∈ s'.threads, isGone t = false) := by
  induction h with
  | refl => exact ⟨hr, hd, rfl, rfl, id⟩
  | step _ hw ih =>
    obtain ⟨a, b, c, d, e⟩ := ih
    exact ⟨a.step hw.1.1.1, hw.2, hw.1.1.2.1.trans c, (wanting_step (good_of_reach a) b hw).trans d, fun h0 => gone_step hw.1 (e h0)⟩

/-- The work comes to an end. -/
theorem served_end (n : Nat) : ∀ s, mu s ≤ n → Reach acc {} s → s.down = false →
    ∃ s', Served acc s s' ∧ ∀ s'', ¬ Serves acc s' s'' := by
  induction n with
  | zero =>
    intro s hn hr hd
    refine ⟨s, .refl s, fun s' hw => ?_⟩
    have := Moves.mu (good_of_reach hr) hd (Serves.moves hw)
    omega
  | succ n ih =>
    intro s hn hr hd
    by_cases h : ∃ s', Serves acc s s'
    · obtain ⟨s1, hw⟩ := h
      have := Moves.mu (good_of_reach hr) hd (Serves.moves hw)
      obtain ⟨s2, hw2, hb⟩ := ih s1 (by omega) (hr.step hw.1.1.1) hw.2
      refine ⟨s2, ?_, hb⟩
      clear hb
      induction hw2 with
      | refl => exact .step (.refl s) hw
      | step _ h ih => exact .step ih h
    · exact ⟨s, .refl s, fun s' hw => h ⟨s', hw⟩⟩

end
end Willow.Locker
