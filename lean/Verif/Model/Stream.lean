import Verif.Model.File

/-!
# Model of the forest file with errors (src/ram_forest.cpp:98-185)

`Model/File.lean` gives the bytes that `Commit` writes. Here the stream `m_file` has its error state, and opening the file or writing
to it can fail. The operating system decides: `out i = none` says that the `i`-th `write` of the stream succeeds, `out i = some k`
that it fails after `k` bytes. The buffer of the stream is not modelled: a real stream can report an error later than this one, never
earlier, and may try to write what is left in the buffer when it is destroyed.
-/

namespace Utreexo
namespace Stream

/-- The stream `m_file` (include/ram_forest.h:27) and the file behind it. `good` is `m_file.good()`. -/
structure Stream where
  isOpen : Bool
  good : Bool
  /-- The position of the next byte. -/
  off : Nat
  /-- What the file contains. -/
  file : List Byte
  /-- The number of writes so far. -/
  writes : Nat
deriving DecidableEq

/-- A default-constructed `std::fstream`: no file, no error. `file` is the file at the path, which the stream does not know. -/
def Stream.closed (file : List Byte) : Stream := { isOpen := false, good := true, off := 0, file := file, writes := 0 }

/-- `std::fstream(path, mode)` where opening the file fails: the constructor sets `failbit`. -/
def Stream.failed (file : List Byte) : Stream := { isOpen := false, good := false, off := 0, file := file, writes := 0 }

/-- `std::fstream(path, mode)` where opening the file succeeds. -/
def Stream.opened (file : List Byte) : Stream := { isOpen := true, good := true, off := 0, file := file, writes := 0 }

/-- `m_file.seekg(0)` (src/ram_forest.cpp:129, 167): nothing if there was an error, an error if no file is open. -/
def seek0 (st : Stream) : Stream :=
  if !st.good then st
  else if !st.isOpen then { st with good := false }
  else { st with off := 0 }

/-- `m_file.write` (src/ram_forest.cpp:171, 179): nothing if there was an error. Nothing in the code clears the error state. -/
def write (out : Nat → Option Nat) (st : Stream) (bs : List Byte) : Stream :=
  if !st.good then st
  else if !st.isOpen then { st with good := false }
  else match out st.writes with
    | none => { st with file := File.writeAt st.file st.off bs, off := st.off + bs.length, writes := st.writes + 1 }
    | some k => { st with file := File.writeAt st.file st.off (bs.take k), good := false, writes := st.writes + 1 }

/-- `RamForest::Commit` (src/ram_forest.cpp:164-185). The state of the stream is not looked at. -/
def commit (big : Bool) (out : Nat → Option Nat) (st : Stream) (s : RamForest Hash32) : Res (Bool × Stream) := do
  let ws ← File.commitWrites big s
  return (true, ws.foldl (write out) (seek0 st))

/-- What the operating system answers to the attempts of `RamForest(file)` to open the file: lines 104, 106 and 111 of
src/ram_forest.cpp. -/
structure Opens where
  probe : Bool
  reopen : Bool
  create : Bool

/-- `RamForest::RamForest(file)` (src/ram_forest.cpp:98-115). If the file was opened once but not again, `Restore` looks at a buffer
that was never written. Opening with `trunc` empties the file. -/
def openForest [HashOps Hash32] (big : Bool) (out : Nat → Option Nat) (o : Opens) (file : List Byte) :
    Res (RamForest Hash32 × Stream) :=
  if o.probe then
    if o.reopen then do
      let s ← File.restore big file
      return (s, Stream.opened file)
    else .error .ub
  else do
    let (_, st) ← commit big out (if o.create then Stream.opened [] else Stream.failed file) (Ram.mk 0)
    return (Ram.mk 0, st)

/-- `RamForest::~RamForest` (src/ram_forest.cpp:117-124). -/
def destroy (big : Bool) (out : Nat → Option Nat) (o : RamForest Hash32 × Stream) : Res Stream :=
  if o.2.good then do
    let (_, st) ← commit big out o.2 o.1
    return { st with isOpen := false }
  else .ok o.2

/-- The calls on a forest object that change the forest or the file. -/
inductive Call
  | modify (leaves : List (Leaf Hash32)) (targets : List Nat)
  | undo (u : UndoBatch Hash32)
  | commit

/-- A call: what it returns, the forests that `Commit` was asked to save, the object afterwards. -/
def call [HashOps Hash32] (big : Bool) (out : Nat → Option Nat) (o : RamForest Hash32 × Stream) :
    Call → Res (Bool × List (RamForest Hash32) × (RamForest Hash32 × Stream))
  | .modify leaves targets => do
    let (b, _, s) ← Ram.modify o.1 leaves targets
    return (b, [], (s, o.2))
  | .undo u => do
    let (b, s) ← Ram.undo o.1 u
    return (b, [], (s, o.2))
  | .commit => do
    let (b, st) ← commit big out o.2 o.1
    return (b, [o.1], (o.1, st))

/-- A sequence of calls: what they return, the forests that were to be saved, the object afterwards. -/
def calls [HashOps Hash32] (big : Bool) (out : Nat → Option Nat) :
    List Call → RamForest Hash32 × Stream → Res (List Bool × List (RamForest Hash32) × (RamForest Hash32 × Stream))
  | [], o => .ok ([], [], o)
  | c :: cs, o => do
    let (b, fs, o) ← call big out o c
    let (bs, gs, o) ← calls big out cs o
    return (b :: bs, fs ++ gs, o)

end Stream
end Utreexo
