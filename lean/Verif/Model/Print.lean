import Verif.Model.State

/-!
Model of the textual output of a tree (include/rakau/tree.hpp:1906-1958): the sequence of lines. How `std::ostream` formats numbers is
not modelled, except for `std::bitset`.
-/
namespace Rakau

/-- The lines that can be printed. -/
inductive Line (env : Env)
  /-- "Box size", with or without "(deduced)". -/
  | box (b : env.F) (deduced : Bool)
  | nParticles (n : Nat)
  /-- "Total number of nodes", followed by an empty line. -/
  | nNodes (n : Nat)
  /-- "First ... nodes:". -/
  | first (n : Nat)
  /-- "Nodes:". -/
  | all
  /-- A node: the digits of its code, its range and number of children, then mass and centre of mass. -/
  | node (digits : List Bool) (b e nc : Nat) (p : env.Props)
  /-- "...". -/
  | ellipsis

variable {env : Env}

/-- The characters of `std::bitset<w>(code)`: the bits from the most significant to the least significant. -/
def bitset (w code : Nat) : List Bool := (List.range w).map (fun i => code.testBit (w - 1 - i))

/-- The loop over the nodes (tree.hpp:1929-1949): the lines and the final value of `n_printed`. -/
def printLoop (w mx : Nat) : List (Node × env.Props) → Nat → List (Line env) × Nat
  | [], k => ([], k)
  | (nd, p) :: rest, k =>
    let line := .node (bitset w nd.code) nd.beg nd.fin nd.nChildren p
    let k := (k + 1) % 2 ^ 64
    if k = mx then ([line], k)
    else
      let r := printLoop w mx rest k
      (line :: r.1, r.2)

/-- `pprint(os, max_nodes)` (tree.hpp:1906-1954). -/
def pprint (s : TS env) (mx : Nat) : List (Line env) :=
  let n := s.tree.length
  let head := [.box s.box s.deduced, .nParticles s.codes.length, .nNodes n]
  if n = 0 then head
  else
    let title := if mx ≠ 0 ∧ mx < n then .first mx else .all
    let r := printLoop env.w mx (s.tree.zip s.props) 0
    head ++ title :: r.1 ++ (if r.2 < n then [.ellipsis] else [])

/-- `operator<<` (tree.hpp:1955-1959). -/
def stream (s : TS env) : List (Line env) := pprint s 20

end Rakau
