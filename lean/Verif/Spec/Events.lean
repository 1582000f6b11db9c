import Verif.Model.ThreadPool
/-
How the thread pool properties read a sequence of events.
-/
namespace Bridge.TP

/-- The tasks accepted, taken from the queue, called, and returned from, in the order of the events. -/
def pushes (es : List Event) : List Nat := es.filterMap fun | .push t => some t | _ => none
/-- See `pushes`. -/
def takes (es : List Event) : List Nat := es.filterMap fun | .take t => some t | _ => none
/-- See `pushes`. -/
def starts (es : List Event) : List Nat := es.filterMap fun | .start t => some t | _ => none
/-- See `pushes`. -/
def finishes (es : List Event) : List Nat := es.filterMap fun | .finish t => some t | _ => none

/-- Steps that a call from outside or a spurious wake-up starts. -/
def Event.external : Event → Bool
  | .push _ | .pushDropped | .stop | .stopAgain | .spurious => true
  | _ => false

end Bridge.TP
