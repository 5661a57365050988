import Verif.Model.Deque
/-
The counters `_size` of `vector` and `deque` are `atomic<int>` (vector.cuh:590, deque.cuh:434). `Model/Vector.lean` and
`Model/Deque.lean` use unbounded integers; here are the front ends with 32 bit counters, whose atomic increments and
decrements wrap around. C58 proves that there is no difference for capacities and thread numbers below 2^31.
-/
namespace Stdgpu.Counter32
open Stdgpu.SlotConc
open Stdgpu.Vector (clampSize)

/-- Conversion to `int` (32 bits, two's complement). -/
def wrap (x : Int) : Int := (BitVec.ofInt 32 x).toInt

/-- impl/vector_detail.cuh:186-202, 247-262: the front end of `push_back` / `pop_back` with a 32 bit `_size`. -/
def vfront32 (cap : Nat) : Front Int Unit Vector.FPC where
  start := .check
  step s isPush _ f :=
    match f with
    | .check =>
      if isPush then (if clampSize cap s == cap then (s, .fail) else (s, .cont .rmw))
      else (if clampSize cap s == 0 then (s, .fail) else (s, .cont .rmw))
    | .rmw =>
      if isPush then
        if 0 ≤ s ∧ s < cap then (wrap (s + 1), .go s.toNat) else (wrap (s + 1), .fail)
      else
        if 0 ≤ wrap (s - 1) ∧ wrap (s - 1) < cap then (wrap (s - 1), .go (wrap (s - 1)).toNat) else (wrap (s - 1), .fail)

/-- impl/deque_detail.cuh:203-446: the front end of `push_*` / `pop_*` with a 32 bit `_size`. -/
def dfront32 (cap : Nat) : Front Deque.Ctr Deque.Side Deque.FPC where
  start := .check
  step c isPush side f :=
    match f with
    | .check =>
      if isPush then (if clampSize cap c.size == cap then (c, .fail) else (c, .cont .size))
      else (if clampSize cap c.size == 0 then (c, .fail) else (c, .cont .size))
    | .size =>
      if isPush then
        if c.size < cap then ({ c with size := wrap (c.size + 1) }, .cont .pos)
        else ({ c with size := wrap (c.size + 1) }, .fail)
      else
        if c.size > 0 then ({ c with size := wrap (c.size - 1) }, .cont .pos)
        else ({ c with size := wrap (c.size - 1) }, .fail)
    | .pos =>
      let r := Deque.position cap c isPush side
      (r.2, .go r.1)

end Stdgpu.Counter32
