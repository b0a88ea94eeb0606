import Verif.Model.Codec

/-!
# Model of the position map as a hash table

`m_posmap` is a `std::unordered_map<Hash, uint64_t, LeafHasher>` (include/accumulator.h:90). The rest of the model keeps it as a list of
entries. Here it is a table of buckets as the C++ standard describes it ([unord.req]): an entry lies in the bucket given by its hash
modulo the number of buckets, and looking for a key compares it with the entries of that bucket. When and how far the table grows is
left open: `policy` gives the number of buckets for a size. Memory and the links between the entries are not modelled.
-/

namespace Utreexo
namespace Table

/-- `LeafHasher::operator()` (src/ram_forest.cpp:15): `ReadLE64(hash.data())`. -/
def leafHash (big : Bool) (h : Hash32) : Nat := (Codec.readLE64 big h.val).toNat

variable {K V : Type} [DecidableEq K]

/-- The buckets and `size()`. -/
structure _root_.Utreexo.Table (K V : Type) where
  buckets : List (List (K × V))
  count : Nat

/-- The empty table with `b` buckets. -/
def empty (b : Nat) : Table K V := { buckets := List.replicate b [], count := 0 }

/-- The bucket of a key; no bucket at all is undefined behaviour. -/
def slot (hash : K → Nat) (t : Table K V) (k : K) : Nat := hash k % t.buckets.length

/-- Looking through a bucket: the value found and the number of entries looked at. -/
def chainFind : List (K × V) → K → Option V × Nat
  | [], _ => (none, 0)
  | e :: c, k => if e.1 = k then (some e.2, 1) else ((chainFind c k).1, (chainFind c k).2 + 1)

/-- `find(k)`. -/
def find (hash : K → Nat) (t : Table K V) (k : K) : Res (Option V × Nat) := do
  return chainFind (← vecGet t.buckets (slot hash t k)) k

/-- Putting an entry in front of its bucket. -/
def put (hash : K → Nat) (buckets : List (List (K × V))) (e : K × V) : Res (List (List (K × V))) := do
  let i := hash e.1 % buckets.length
  vecSet buckets i (e :: (← vecGet buckets i))

/-- `rehash(b)`. -/
def rehash (hash : K → Nat) (t : Table K V) (b : Nat) : Res (Table K V) := do
  return { t with buckets := ← t.buckets.flatten.foldlM (put hash) (List.replicate b []) }

/-- `map[k] = v`: the table and the number of entries looked at. -/
def insert (hash : K → Nat) (policy : Nat → Nat → Nat) (t : Table K V) (k : K) (v : V) : Res (Table K V × Nat) := do
  let c ← vecGet t.buckets (slot hash t k)
  let (o, n) := chainFind c k
  match o with
  | some _ =>
    return ({ t with buckets := ← vecSet t.buckets (slot hash t k) (c.map fun e => if e.1 = k then (k, v) else e) }, n)
  | none =>
    let b := policy t.buckets.length (t.count + 1)
    let t ← if b = t.buckets.length then pure t else rehash hash t b
    return ({ buckets := ← put hash t.buckets (k, v), count := t.count + 1 }, n)

/-- `map.erase(k)`. -/
def erase (hash : K → Nat) (t : Table K V) (k : K) : Res (Table K V) := do
  let c ← vecGet t.buckets (slot hash t k)
  match (chainFind c k).1 with
  | some _ =>
    return { buckets := ← vecSet t.buckets (slot hash t k) (c.filter fun e => e.1 ≠ k), count := t.count - 1 }
  | none => return t

/-- A change of the map: `map[k] = v`, or `map.erase(k)` if there is no value. -/
def change (hash : K → Nat) (policy : Nat → Nat → Nat) (t : Table K V) (op : K × Option V) : Res (Table K V) :=
  match op.2 with
  | some v => do return (← insert hash policy t op.1 v).1
  | none => erase hash t op.1

/-- A sequence of changes. -/
def changes (hash : K → Nat) (policy : Nat → Nat → Nat) (ops : List (K × Option V)) (t : Table K V) : Res (Table K V) :=
  ops.foldlM (change hash policy) t

/-- Inserting keys one after the other, with the number of entries looked at on the way. -/
def insertAll (hash : K → Nat) (policy : Nat → Nat → Nat) : List (K × V) → Table K V → Nat → Res (Table K V × Nat)
  | [], t, n => .ok (t, n)
  | e :: es, t, n => do
    let (t, k) ← insert hash policy t e.1 e.2
    insertAll hash policy es t (n + k)

end Table
end Utreexo
