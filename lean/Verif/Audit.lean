import Lean.Util.CollectAxioms
import Lean.Elab.Command
import Verif.Props.Bit
import Verif.Props.Atomic
import Verif.Props.Bitset
import Verif.Props.Mutex
import Verif.Props.Vector
import Verif.Props.Deque
import Verif.Props.QueueStack
import Verif.Props.Unordered
import Verif.Props.UnorderedConc
import Verif.Props.Memory
import Verif.Props.Algorithm
import Verif.Props.Hash
import Verif.Props.Sizes
import Verif.Props.Lifetime
import Verif.Props.UnorderedBulk
import Verif.Props.Counter
import Verif.Props.MemoryConc
import Verif.Props.Races
import Verif.Props.URaces
import Verif.Props.Fence
import Verif.Props.ULinear
import Verif.Props.Objects
import Verif.Props.AtomicOps
import Verif.Props.Progress
import Verif.Props.UFairness
import Verif.Props.SLinear
import Verif.Props.QLinear
import Verif.Props.Execution
import Verif.Props.WaveSlots
import Verif.Props.Index32
import Verif.Props.UMixed
import Verif.Props.Algorithm32
import Verif.Props.InsertCopy
import Verif.Props.Ranges
import Verif.Props.UMixProgress
import Verif.Props.ULookups
import Verif.Props.UConserve
import Verif.Props.Boundary
import Verif.Props.Packed
import Verif.Props.Range32
import Verif.Props.ParLoops
import Verif.Props.Contracts
import Verif.Props.LoadFactor
import Verif.Props.OutOfMemory
import Verif.Props.Addresses
import Verif.Props.Limits
import Verif.Props.StoreBuffer
import Verif.Props.RandomSched
import Verif.Props.Handles
import Verif.Props.Histories
import Verif.Props.UHistories
import Verif.Props.SizesRounded
import Verif.Props.LiveSize
import Verif.Props.Stable
import Verif.Props.ProgramOrder
import Verif.Props.Lawless
import Verif.Props.LoopFree
import Verif.Props.BitCast
import Verif.Props.Bytes64
import Verif.Props.RandomMixed
import Verif.Props.Valid
/-
The build fails here if a theorem of the namespace `Stdgpu.Props` depends on any axiom other than the three standard ones.
-/
open Lean in
run_cmd do
  let env ← getEnv
  let allowed := [``propext, ``Classical.choice, ``Quot.sound]
  for (n, c) in env.constants.map₁.toList do
    if (`Stdgpu.Props).isPrefixOf n && c matches .thmInfo _ then
      for a in ← Lean.collectAxioms n do
        unless allowed.contains a do throwError "{n} depends on {a}"
