import Verif.Model.Heartbeater
/-! Specification vocabulary for histories of a heartbeater (newest event first). -/
namespace Willow.HeartbeaterSpec
open Willow.Heartbeater

/-- An event that ends a heartbeater. -/
def ends : Ev → Bool
  | .stop true | .timeout | .shutdown => true
  | _ => false

/-- A successful answer or a callback. -/
def effective : Ev → Bool
  | .start true | .stop true | .beat true | .timeout | .shutdown => true
  | _ => false

/-- An event that (re)starts the lease. -/
def renews : Ev → Bool
  | .start true | .beat true => true
  | _ => false

end Willow.HeartbeaterSpec
