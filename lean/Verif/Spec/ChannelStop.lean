import Verif.Model.ChannelStop
/-
Specification of stopping willow: what it means that a channel came to its end.
-/
namespace Willow.ChanStop

/-- The channel keeps nobody waiting and nothing of it runs: `Execute` and the manager returned, every heartbeat process is over, every
waiting consumer and every call was answered. -/
def AllEnded (s : St) : Prop :=
  s.exec = .returned ∧ s.mgr = .returned ∧ (∀ h ∈ s.hbs, h = .done) ∧ s.stuck = [] ∧ s.waiting = 0

/-- Nothing of the channel runs any more. -/
def Over (s : St) : Prop := s.exec = .returned ∧ s.mgr = .returned ∧ ∀ h ∈ s.hbs, h = .done

/-- The two ways in which the channel hangs:
 * an ACK or a heartbeat of an item came when the timeout of the item had fired and was not processed yet;
 * a heartbeat of an item came before its delivery was completed. -/
inductive Hangs (s : St) : Prop
  | timeout (c : Stuck) (h : c ∈ s.stuck) (hb : s.hbs[c.hb]? = some .firing)
  | early (c : Stuck) (h : c ∈ s.stuck) (hb : s.hbs[c.hb]? = some .waitStart) (he : s.exec = .handed (some c.hb))

/-- Nothing happens any more unless something arrives from outside. -/
def Rests (s : St) : Prop := ∀ s', ¬ Work s s'

/-- `s'` is reached from `s` by `n` things that happen inside, nothing arriving from outside. -/
inductive Worked : St → Nat → St → Prop
  | refl (s) : Worked s 0 s
  | step {s n s' s''} : Worked s n s' → Work s' s'' → Worked s (n + 1) s''

/-- `s'` is later than `s`, whatever arrived and happened in between. -/
inductive Later : St → St → Prop
  | refl (s) : Later s s
  | ask {s s' s''} : Later s s' → Ask s' s'' → Later s s''
  | work {s s' s''} : Later s s' → Work s' s'' → Later s s''

end Willow.ChanStop
