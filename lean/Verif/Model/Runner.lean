import Verif.Model.Args

/-!
# Model of the benchmark runner (src/bench/bench.cpp and bench.h)

Benchmarks register themselves while the static objects of the source files are initialised, and `RunAll` calls those that match the
filter. A benchmark function is a value of a type `B`; a number of the option `-asymptote` is a value of a type `N`; what is modelled is
which functions are called, in which order and with which settings. Whether a name matches a regular expression is a function that is
given, and so is whether the expression is valid; another one, `rd`, rounds a decimal number to a `double`, or fails if it is out of
range. Not modelled: the measuring and the output.
-/

namespace Utreexo
namespace Runner

variable {B N : Type}

/-- `map.insert(make_pair(key, value))`: nothing changes if the key is there. -/
def insert (k : List Char) (v : B) : List (List Char × B) → List (List Char × B)
  | [] => [(k, v)]
  | e :: m => if Args.less k e.1 then (k, v) :: e :: m else if Args.less e.1 k then e :: insert k v m else e :: m

/-- The constructor of `BenchRunner` (src/bench/bench.cpp:21-24), called once for every `BENCHMARK` (src/bench/bench.h:62-64), in the
order of initialisation. -/
def register : List (List Char × B) → List (List Char × B) → List (List Char × B)
  | [], m => m
  | e :: es, m => register es (insert e.1 e.2 m)

/-- A call of a benchmark function: its name, the minimum time of an epoch in nanoseconds and the number of `complexityN` if it is
set. -/
structure Call (B N : Type) where
  name : List Char
  func : B
  minEpoch : Nat
  size : Option N
  deriving DecidableEq

/-- `bench.epochs()` of a new `Bench` (src/bench/nanobench.h:386). -/
def epochs : Nat := 11

/-- The minimum time of an epoch (src/bench/bench.cpp:39-43): milliseconds become nanoseconds in signed 64 bit arithmetic and are divided
by the number of epochs; the initial value is 0 (src/bench/nanobench.h:389). -/
def minEpoch (minTime : Int) : Res Nat :=
  if 0 < minTime then
    if minTime * 1000000 < 2 ^ 63 then .ok ((minTime * 1000000).toNat / epochs) else .error .ub
  else .ok 0

/-- The loop of `RunAll` (src/bench/bench.cpp:32-59). -/
def runLoop (isMatch : List Char → Bool) (asymptote : List N) (minTime : Int) : List (List Char × B) → Res (List (Call B N))
  | [] => .ok []
  | e :: es =>
    if isMatch e.1 then do
      let t ← minEpoch minTime
      let calls := if asymptote.isEmpty then [{ name := e.1, func := e.2, minEpoch := t, size := none }]
        else asymptote.map fun n => { name := e.1, func := e.2, minEpoch := t, size := some n }
      return calls ++ (← runLoop isMatch asymptote minTime es)
    else runLoop isMatch asymptote minTime es

/-- `RunAll` (src/bench/bench.cpp:26-60): the constructor of `std::regex` throws if the expression is invalid (`none`). -/
def runAll (regex : List Char → Option (List Char → Bool)) (asymptote : List N) (minTime : Int) (filter : List Char)
    (m : List (List Char × B)) : Res (List (Call B N)) :=
  match regex filter with
  | none => .error .exc
  | some isMatch => runLoop isMatch asymptote minTime m

/-- The characters of a number after its sign and leading zeros that `std::num_get` collects, and the rest: digits, one point before the
exponent, and an exponent if there was a digit. -/
def collect : List Char → Bool → Bool → Bool → List Char × List Char
  | [], _, _, _ => ([], [])
  | c :: cs, digit, point, exponent =>
    if Args.isDigit c then
      let r := collect cs true point exponent
      (c :: r.1, r.2)
    else if c = '.' ∧ point = false ∧ exponent = false then
      let r := collect cs digit true exponent
      (c :: r.1, r.2)
    else if (c = 'e' ∨ c = 'E') ∧ exponent = false ∧ digit = true then
      match cs with
      | [] => (['e'], [])
      | d :: ds =>
        if d = '+' ∨ d = '-' then
          let r := collect ds digit point true
          ('e' :: d :: r.1, r.2)
        else
          let r := collect (d :: ds) digit point true
          ('e' :: r.1, r.2)
    else ([], c :: cs)

/-- A sign at the front, and the rest. -/
def takeSign : List Char → List Char × List Char
  | [] => ([], [])
  | c :: cs => if c = '+' ∨ c = '-' then ([c], cs) else ([], c :: cs)

/-- The text that `std::num_get` collects for a `double` in the "C" locale, and the rest. Leading zeros become one. -/
def extract (s : List Char) : List Char × List Char :=
  let (sign, s1) := takeSign s
  let s2 := s1.dropWhile (· = '0')
  let zero := decide (s2.length < s1.length)
  let r := collect s2 zero false false
  (sign ++ (if zero then ['0'] else []) ++ r.1, r.2)

/-- The number written with the digits. -/
def digitsValue (ds : List Char) : Nat := ds.foldl (fun n c => 10 * n + (c.toNat - 48)) 0

/-- `m`, with the sign. -/
def signed (sign : List Char) (m : Nat) : Int := if sign = ['-'] then -(m : Int) else m

/-- `strtod` on the collected text, which has to be a number up to its end: the number is `m * 10 ^ e`. -/
def strtod (t : List Char) : Option (Int × Int) :=
  let (sign, t1) := takeSign t
  let ds := t1.takeWhile Args.isDigit
  let t2 := t1.dropWhile Args.isDigit
  let (fs, t3) := match t2 with
    | '.' :: r => (r.takeWhile Args.isDigit, r.dropWhile Args.isDigit)
    | r => ([], r)
  if ds.isEmpty && fs.isEmpty then none
  else
    let m := signed sign (digitsValue (ds ++ fs))
    match t3 with
    | [] => some (m, -(fs.length : Int))
    | 'e' :: r =>
      let (esign, es) := takeSign r
      if es.isEmpty || !es.all Args.isDigit then none
      else some (m, signed esign (digitsValue es) - fs.length)
    | _ => none

/-- The loop of `parseAsymptote` (src/bench/bench_utreexo.cpp:30-33). Both extractions skip white space; each one fails at the end of the
text, and then so do all later ones. The fuel is the length of the text. -/
def parseLoop (rd : Int → Int → Option N) : Nat → List Char → List N
  | 0, _ => []
  | fuel + 1, s =>
    let (t, rest) := extract (s.dropWhile Args.isSpace)
    match (strtod t).bind fun x => rd x.1 x.2 with
    | none => []
    | some d =>
      match rest.dropWhile Args.isSpace with
      | [] => [d]
      | _ :: rest' => d :: parseLoop rd fuel rest'

/-- `parseAsymptote` (src/bench/bench_utreexo.cpp:24-35). -/
def parseAsymptote (rd : Int → Int → Option N) (s : List Char) : List N := parseLoop rd (s.length + 1) s

/-- The whole program (src/bench/bench_utreexo.cpp:38-98) with the benchmarks registered in the given order: `none` stands for the help
text. -/
def program (regex : List Char → Option (List Char → Bool)) (rd : Int → Int → Option N) (benchmarks : List (List Char × B))
    (argv : List (List Char)) : Res (Option (List (Call B N))) := do
  match ← Args.main argv with
  | .help _ => return none
  | .run asymptote minTime filter => return some (← runAll regex (parseAsymptote rd asymptote) minTime filter (register benchmarks []))

/-- The names that the source files register (src/bench/ram_forest.cpp:153-158, src/bench/pollard.cpp:78-80). -/
def registered : List String :=
  ["AddElementsForest", "AddElementsWithModifyForest", "RestoreFromDiskForest", "ProveElementsForest", "VerifyElementsForest",
    "RemoveElementsForest", "AddElementsPollard", "VerifyElementsPollard", "RestorePollard"]

end Runner
end Utreexo
