import Verif.Model.Gpu

/-!
`rocm_state::acc_pot` of src/rakau_rocm.cpp:102-325 on a range of particles. Unlike the kernel of CUDA, which is given the end of the range (rakau_cuda.cu:158), the kernel of ROCm compares with the number of
particles of the tree (rakau_rocm.cpp:127): the threads of the last tile that are past the range go on if there are particles. `Gpu.launch` of `Model/Gpu.lean` is the same for ranges that end at the last particle.
-/
namespace Rakau
variable {K : Type} [Field K] [LinearOrder K]
namespace Gpu

/-- The kernel on the range `[b, e)` (rakau_rocm.cpp:116-313) of `np` particles in tiles of `bs` threads, with writes to views of length `e - b`. Writes beyond a view are undefined. -/
def launchRocm (c : Gpu K) (np bs b e : Nat) (view : List (Res K)) : Option (List (Res K)) :=
  (List.range ((e - b + (bs - 1)) / bs)).foldlM (fun view blk => do
    let ls := ((List.range bs).map (fun t => blk * bs + t)).filter (fun l => !decide (np ≤ l + b))
    let res ← c.warp (ls.map (· + b))
    (ls.zip res).foldlM (fun view lr => if lr.1 < view.length then some (view.set lr.1 lr.2) else none) view) view

/-- `rocm_state::acc_pot` (rakau_rocm.cpp:102-325): views of length `e - b` into the output, from `b` if `offset`, otherwise from its start; they are synchronised at the end. The assertions (lines 106, 111) are
hypotheses of the theorems. -/
def rocmAccPot (c : Gpu K) (np bs b e : Nat) (offset : Bool) (out : List (Res K)) : Option (List (Res K)) := do
  let o := if offset then b else 0
  if out.length < o + (e - b) then none else
  let view ← c.launchRocm np bs b e ((out.drop o).take (e - b))
  some (out.take o ++ view ++ out.drop (o + (e - b)))

end Gpu
end Rakau
