import Verif.Spec.Unordered
/-! Independent specification of how often, and in what order, samples were sent. -/
namespace Verif

/-- The samples sent for a label set in these happenings, in the order in which they were sent. -/
def sentTo (hs : List Happening) (ls : Labels) : List TimePoint :=
  hs.flatMap fun
    | .call (.write m) => m.flatMap fun ser => if sortLabels ser.labels = ls then ser.samples.map Sample.point else []
    | _ => []

end Verif
