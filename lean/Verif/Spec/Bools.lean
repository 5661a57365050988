import Verif.Model.Bitset
/-! Specification of a bitset: a list of booleans. -/
namespace Stdgpu.Spec
open Stdgpu.Bitset (Op Out)

/-- Effect of an operation on a list of booleans; `none` when an index is out of range (precondition violated). -/
def boolsExec (l : List Bool) : Op → Option (Out × List Bool)
  | .set n x => (l[n]?).map (fun old => (.bit old, l.set n x))
  | .reset n => (l[n]?).map (fun old => (.bit old, l.set n false))
  | .flip n => (l[n]?).map (fun old => (.bit old, l.set n (!old)))
  | .test n => (l[n]?).map (fun old => (.bit old, l))
  | .setAll => some (.unit, List.replicate l.length true)
  | .resetAll => some (.unit, List.replicate l.length false)
  | .flipAll => some (.unit, l.map (!·))
  | .count => some (.num (l.count true), l)

def boolsExecAll (l : List Bool) : List Op → Option (List Out × List Bool)
  | [] => some ([], l)
  | op :: ops => do
    let (o, l') ← boolsExec l op
    let (os, l'') ← boolsExecAll l' ops
    return (o :: os, l'')

end Stdgpu.Spec
