import Verif.Model.RamForest
import Verif.Model.Pollard

/-!
# What a map has to answer, and sessions with an accumulator

A change of a map gives a key a value or takes it away. The value of a key is that of the last change of the key. A session is a
sequence of calls of the public functions together with their answers; between the calls the map may change its order.
-/

namespace Utreexo
namespace Spec

/-- The value of a key after some changes, the oldest first: that of the last change that is about the key. -/
def lastValue {K : Type} [DecidableEq K] (ops : List (K × Option Nat)) (k : K) : Option Nat :=
  match ops.reverse.find? (fun op => op.1 = k) with
  | some op => op.2
  | none => none

variable {H : Type} [DecidableEq H] [HashOps H]

/-- The answer to a call. -/
inductive Answer (H : Type) where
  | flag (ok : Bool)
  | batch (ok : Bool) (undo : Option (UndoBatch H))
  | proof (p : Option (BatchProof H))
  | hashes (l : List H)
  | number (n : Nat)

/-- A call of a forest. -/
inductive ForestCall (H : Type) where
  | modify (leaves : List (Leaf H)) (targets : List Nat)
  | undo (u : UndoBatch H)
  | prove (hashes : List H)
  | verify (proof : BatchProof H) (hashes : List H)
  | equal (other : RamForest H)
  | roots

def ForestCall.run (f : RamForest H) : ForestCall H → Res (Answer H × RamForest H)
  | .modify leaves targets => do let (ok, u, f) ← Ram.modify f leaves targets; return (.batch ok u, f)
  | .undo u => do let (ok, f) ← Ram.undo f u; return (.flag ok, f)
  | .prove hashes => do return (.proof (← Acc.prove Ram.vt f hashes), f)
  | .verify proof hashes => .ok (.flag (Ram.verify f proof hashes), f)
  | .equal other => do return (.flag (← Ram.equal f other), f)
  | .roots => do return (.hashes (← Ram.roots f), f)

/-- A call of a pollard. -/
inductive PollardCall (H : Type) where
  | modify (leaves : List (Leaf H)) (targets : List Nat)
  | prove (hashes : List H)
  | verify (proof : BatchProof H) (hashes : List H)
  | prune
  | roots
  | cached

def PollardCall.run (p : Pollard H) : PollardCall H → Res (Answer H × Pollard H)
  | .modify leaves targets => do let (ok, p) ← Pol.modify p leaves targets; return (.flag ok, p)
  | .prove hashes => do return (.proof (← Acc.prove Pol.vt p hashes), p)
  | .verify proof hashes => do let (ok, p) ← Pol.verify p proof hashes; return (.flag ok, p)
  | .prune => do return (.flag true, ← Pol.pruneAll p)
  | .roots => do return (.hashes (← Pol.roots p), p)
  | .cached => .ok (.number (Pol.numCachedLeaves p), p)

/-- The answers of a session, and the fault that ends it. Before the call number `i` the map takes the order `order i`. -/
def session {C N X : Type} (run : Acc H N X → C → Res (Answer H × Acc H N X)) (order : Nat → PosMap H → PosMap H) :
    Nat → List C → Acc H N X → List (Answer H) × Option Fault
  | _, [], _ => ([], none)
  | i, c :: cs, a =>
    match run { a with posmap := order i a.posmap } c with
    | .error e => ([], some e)
    | .ok (x, a) => let (xs, e) := session run order (i + 1) cs a; (x :: xs, e)

end Spec
end Utreexo
