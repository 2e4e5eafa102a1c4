import Verif.Model.Build

/-!
Model of the allocator of the particle vectors (include/rakau/detail/di_aligned_allocator.hpp). `std::size_t` has 64 bits. The macOS variant,
which uses `posix_memalign` and does not round the size, is not modelled.
-/
namespace Rakau

/-- The static assertion on the alignment (di_aligned_allocator.hpp:32-34); `nat` is `alignof(T)`. -/
def alignOk (nat al : Nat) : Prop := al = 0 ∨ nat ≤ al ∧ al &&& (al - 1) = 0

instance (nat al : Nat) : Decidable (alignOk nat al) := inferInstanceAs (Decidable (_ ∨ _ ∧ _))

/-- `max_size()` (di_aligned_allocator.hpp:52-59), `sz` is `sizeof(T)`. The subtraction is modular. -/
def allocMaxSize (al sz : Nat) : Nat := subW 64 szMax al / sz

/-- The call that obtains the memory. -/
inductive AllocCall
  | malloc (bytes : Nat)
  | aligned (al bytes : Nat)
  deriving DecidableEq

/-- `allocate(n)` (di_aligned_allocator.hpp:61-98) up to the call that obtains the memory; all the operations are modular. -/
def allocCall (al sz n : Nat) : AllocCall :=
  let size := n * sz % 2 ^ 64
  if al = 0 then .malloc size
  else
    let rem := size % al
    if rem ≠ 0 then .aligned al ((size + subW 64 al rem) % 2 ^ 64) else .aligned al size

def AllocCall.bytes : AllocCall → Nat
  | .malloc b => b
  | .aligned _ b => b

end Rakau
