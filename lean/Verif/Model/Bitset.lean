import Verif.Model.Bit
/-
Model of `src/stdgpu/impl/bitset_detail.cuh`.

`Block` is an unsigned type with `w` digits; a bitset is its array of blocks plus the size. The element operations
are the ones executed by one thread; each touches its block with exactly one atomic read-modify-write
(`fetch_or` / `fetch_and` / `fetch_xor`) or load, so concurrent executions are interleavings of these functions.
Accessing a block outside the array (undefined behaviour in C++) is the distinct outcome `none`.
-/
namespace Stdgpu.Bitset
open Stdgpu.Bit

/-- bitset.cuh:409-413: the members of `bitset`. -/
structure Bitset (w : Nat) where
  blocks : List (BitVec w)   -- `_bit_blocks`
  size : Nat                 -- `_size`
  deriving DecidableEq

variable {w : Nat}

/-- impl/bitset_detail.cuh:104-112 `reference::bit`. -/
def bitOf (bits : BitVec w) (n : Nat) : Bool := (bits &&& ((1 : BitVec w) <<< n)) != 0

/-- impl/bitset_detail.cuh:45-66 `reference::operator=(bool)`: (returned old bit, new block). -/
def refAssign (block : BitVec w) (bitN : Nat) (x : Bool) : Bool × BitVec w :=
  let setPattern : BitVec w := (1 : BitVec w) <<< bitN
  let resetPattern := ~~~setPattern
  if x then (bitOf block bitN, block ||| setPattern)
  else (bitOf block bitN, block &&& resetPattern)

/-- impl/bitset_detail.cuh:92-102 `reference::flip`. -/
def refFlip (block : BitVec w) (bitN : Nat) : Bool × BitVec w :=
  let flipPattern : BitVec w := (1 : BitVec w) <<< bitN
  (bitOf block bitN, block ^^^ flipPattern)

/-- impl/bitset_detail.cuh:117-128 `detail::div_up`. -/
def divUp (a b : Nat) : Nat := if a % b ≠ 0 then a / b + 1 else a / b

/-- impl/bitset_detail.cuh:233-238 `number_bit_blocks`. -/
def numberBitBlocks (w size : Nat) : Nat := divUp size w

/-- impl/bitset_detail.cuh:183-204 `createDeviceObject`. -/
def create (w size : Nat) : Bitset w :=
  { blocks := List.replicate (numberBitBlocks w size) 0, size := size }

/-- impl/bitset_detail.cuh:352-354: `block_n = n / _bits_per_block`. -/
def blockN (w n : Nat) : Nat := n / w

/-- impl/bitset_detail.cuh:353-354: `bit_n = bit_mod<std::size_t>(n, _bits_per_block)`. -/
def bitN (w n : Nat) : Nat := (bitMod (BitVec.ofNat 64 n) (BitVec.ofNat 64 w)).toNat

/-- impl/bitset_detail.cuh:331-365 `operator[]` read access / `test`. -/
def test (b : Bitset w) (n : Nat) : Option Bool :=
  (b.blocks[blockN w n]?).map (fun blk => bitOf blk (bitN w n))

/-- impl/bitset_detail.cuh:265-273 `set(n, value)`: (previous bit, new bitset). -/
def set (b : Bitset w) (n : Nat) (value : Bool) : Option (Bool × Bitset w) :=
  match b.blocks[blockN w n]? with
  | none => none
  | some blk =>
    let r := refAssign blk (bitN w n) value
    some (r.1, { b with blocks := b.blocks.set (blockN w n) r.2 })

/-- impl/bitset_detail.cuh:293-301 `reset(n)`. -/
def reset (b : Bitset w) (n : Nat) : Option (Bool × Bitset w) := set b n false

/-- impl/bitset_detail.cuh:321-329 `flip(n)`. -/
def flip (b : Bitset w) (n : Nat) : Option (Bool × Bitset w) :=
  match b.blocks[blockN w n]? with
  | none => none
  | some blk =>
    let r := refFlip blk (bitN w n)
    some (r.1, { b with blocks := b.blocks.set (blockN w n) r.2 })

/-- impl/bitset_detail.cuh:254-263 `set()`: fills all blocks, including unused tail bits. -/
def setAll (b : Bitset w) : Bitset w := { b with blocks := b.blocks.map (fun _ => ~~~(0 : BitVec w)) }

/-- impl/bitset_detail.cuh:282-291 `reset()`. -/
def resetAll (b : Bitset w) : Bitset w := { b with blocks := b.blocks.map (fun _ => (0 : BitVec w)) }

/-- impl/bitset_detail.cuh:162-179, 310-319 `flip()`: complements all blocks, including unused tail bits. -/
def flipAll (b : Bitset w) : Bitset w := { b with blocks := b.blocks.map (fun blk => ~~~blk) }

/-- impl/bitset_detail.cuh:146-154 `count_block_bits::block_mask`. `remaining_bits` is positive for every block
of the array; it is truncated subtraction here, see `count`. -/
def blockMask (w size i : Nat) : BitVec w :=
  let remainingBits := size - i * w
  if remainingBits ≥ w then ~~~(0 : BitVec w) else ((1 : BitVec w) <<< remainingBits) - 1

/-- impl/bitset_detail.cuh:140-144 `count_block_bits::operator()`. -/
def countBlockBits (b : Bitset w) (i : Nat) : Nat :=
  popcount (blockMask w b.size i &&& (b.blocks[i]?).getD 0)

/-- impl/bitset_detail.cuh:388-404 `count`: reduction over all blocks (the reduction order is treated in
`Props/Algorithm.lean`). -/
def count (b : Bitset w) : Nat :=
  if b.size = 0 then 0
  else ((List.range (numberBitBlocks w b.size)).map (countBlockBits b)).sum

/-- impl/bitset_detail.cuh:413-425 `all`. -/
def all (b : Bitset w) : Bool := if b.size = 0 then false else count b == b.size

/-- impl/bitset_detail.cuh:434-446 `any`. -/
def any (b : Bitset w) : Bool := if b.size = 0 then false else decide (count b > 0)

/-- impl/bitset_detail.cuh:455-467 `none`. -/
def none' (b : Bitset w) : Bool := if b.size = 0 then false else count b == 0

/-- Operations of one history. The member functions of `bitset`, impl/bitset_detail.cuh:245-405. -/
inductive Op where
  | set (n : Nat) (x : Bool) | reset (n : Nat) | flip (n : Nat) | test (n : Nat)
  | setAll | resetAll | flipAll | count
  deriving DecidableEq

/-- Results. Results of the member functions of `bitset`, impl/bitset_detail.cuh:245-405. -/
inductive Out where
  | bit (b : Bool) | num (n : Nat) | unit
  deriving DecidableEq

/-- Execute one operation; `none` is undefined behaviour. impl/bitset_detail.cuh:245-405. -/
def exec (b : Bitset w) : Op → Option (Out × Bitset w)
  | .set n x => (set b n x).map (fun r => (.bit r.1, r.2))
  | .reset n => (reset b n).map (fun r => (.bit r.1, r.2))
  | .flip n => (flip b n).map (fun r => (.bit r.1, r.2))
  | .test n => (test b n).map (fun r => (.bit r, b))
  | .setAll => some (.unit, setAll b)
  | .resetAll => some (.unit, resetAll b)
  | .flipAll => some (.unit, flipAll b)
  | .count => some (.num (count b), b)

/-- Execute a history. Calls of the functions of impl/bitset_detail.cuh:245-405 one after another. -/
def execAll (b : Bitset w) : List Op → Option (List Out × Bitset w)
  | [] => some ([], b)
  | op :: ops => do
    let (o, b') ← exec b op
    let (os, b'') ← execAll b' ops
    return (o :: os, b'')

end Stdgpu.Bitset
