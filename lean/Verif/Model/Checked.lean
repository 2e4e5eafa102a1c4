import Verif.Model.Build

/-! Checked in-place additions (include/rakau/tree.hpp:509-528). -/
namespace Rakau

/-- `checked_uinc(std::atomic<T> &, T)` (tree.hpp:519-528), `max() = mx`: the new value of the atomic (`fetch_add`
wraps) and whether the call throws. -/
def atomicUInc (mx out add : Nat) : Nat × Bool := ((out + add) % (mx + 1), decide (out > mx - add))

/-- A sequence of atomic increments, in the order in which the `fetch_add`s take effect: the final value and the list
of calls that threw. An exception in one task does not stop the others (the worst case). -/
def atomicRun (mx : Nat) : Nat → List Nat → Nat × List Bool
  | v, [] => (v, [])
  | v, a :: as => let (v', t) := atomicUInc mx v a
                  let (v'', ts) := atomicRun mx v' as
                  (v'', t :: ts)

/-- A sequence of plain checked increments; stops at the first throw. -/
def plainRun (mx : Nat) : Nat → List Nat → Except Err Nat
  | v, [] => .ok v
  | v, a :: as => do plainRun mx (← checkedUInc mx v a) as

/-- `it_diff_check<It>(n)` (tree.hpp:533-554), `dmax` the maximum of the (signed) difference type. -/
def itDiffCheck (dmax n : Nat) : Except Err Unit := if n > dmax then .error .overflow else .ok ()

end Rakau
