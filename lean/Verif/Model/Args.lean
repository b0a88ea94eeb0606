import Verif.Model.C

/-!
# Model of the command line options of the benchmark program (src/bench/util/args.cpp, args.h and src/bench/bench_utreexo.cpp)

A `std::string` is a list of characters; `std::string` compares bytes as unsigned numbers, the model compares character codes. A
`std::map` is the list of its entries in the order of the keys. `parseAsymptote`
and `RunAll` are in `Model/Runner.lean`.
-/

namespace Utreexo
namespace Args

/-- `a < b` for strings: the first character that differs decides, a proper prefix comes first. -/
def less : List Char → List Char → Bool
  | _, [] => false
  | [], _ :: _ => true
  | a :: as, b :: bs => if a.toNat < b.toNat then true else if b.toNat < a.toNat then false else less as bs

/-- `map[key] = value`. -/
def put {V : Type} (k : List Char) (v : V) : List (List Char × V) → List (List Char × V)
  | [] => [(k, v)]
  | e :: m => if less k e.1 then (k, v) :: e :: m else if less e.1 k then e :: put k v m else (k, v) :: m

/-- `map.at(key)`: `none` stands for the exception `std::out_of_range`. -/
def at? {V : Type} (k : List Char) : List (List Char × V) → Option V
  | [] => none
  | e :: m => if less k e.1 then none else if less e.1 k then at? k m else some e.2

/-- `str.find(c)`: `none` stands for `npos`. -/
def find (c : Char) : List Char → Option Nat
  | [] => none
  | a :: as => if a = c then some 0 else (find c as).map (· + 1)

/-- `ArgsManager` (src/bench/util/args.h:13-23). An entry of `available` is the help parameter and the help text. -/
structure Manager where
  available : List (List Char × List Char × List Char)
  options : List (List Char × List Char)

/-- A new `ArgsManager`. -/
def new : Manager := { available := [], options := [] }

/-- The loop of `ParseParameters` (src/bench/util/args.cpp:12-24): `substr` up to the end, `erase` from the index on. -/
def parseLoop : List (List Char) → List (List Char × List Char) → List (List Char × List Char)
  | [], m => m
  | a :: as, m =>
    match find '=' a with
    | some i => parseLoop as (put (a.take i) (a.drop (i + 1)) m)
    | none => parseLoop as (put a [] m)

/-- `ParseParameters` (src/bench/util/args.cpp:8-25): `argv[0]` is not looked at. -/
def parseParameters (s : Manager) (argv : List (List Char)) : Manager := { s with options := parseLoop (argv.drop 1) [] }

/-- `HelpMessageOpt` (src/bench/util/args.cpp:44-53). -/
def helpMessageOpt (option message : List Char) : List Char :=
  List.replicate 2 ' ' ++ option ++ ['\n'] ++ List.replicate 7 ' ' ++ message ++ ['\n', '\n']

/-- The loop of `GetHelpMessage`. -/
def helpLoop : List (List Char × List Char × List Char) → List Char → List Char
  | [], usage => usage
  | e :: es, usage => helpLoop es (usage ++ helpMessageOpt (if e.2.1.isEmpty then e.1 else e.1 ++ e.2.1) e.2.2)

/-- `GetHelpMessage` (src/bench/util/args.cpp:28-42). -/
def getHelpMessage (s : Manager) : List Char := helpLoop s.available ("Options".toList ++ ['\n', '\n'])

/-- `AddArg` (src/bench/util/args.cpp:56-68): `emplace` changes nothing if the key is there, and the assertion fails. -/
def addArg (s : Manager) (name help : List Char) : Res Manager :=
  let i := match find '=' name with
    | some i => i
    | none => name.length
  let key := name.take i
  match at? key s.available with
  | some _ => .error .abort
  | none => .ok { s with available := put key ((name.drop i).take (name.length - i), help) s.available }

/-- `GetArg` (src/bench/util/args.cpp:70-78). -/
def getArg (s : Manager) (arg dflt : List Char) : List Char :=
  match at? arg s.options with
  | some v => v
  | none => dflt

/-- `isspace` in the "C" locale. -/
def isSpace (c : Char) : Bool := c = ' ' || (9 ≤ c.toNat && c.toNat ≤ 13)

/-- A decimal digit. -/
def isDigit (c : Char) : Bool := 48 ≤ c.toNat && c.toNat ≤ 57

/-- The digits of `strtol`: the value so far and whether there was one. -/
def digits : List Char → Int → Bool → Option Int
  | [], acc, seen => if seen then some acc else none
  | c :: cs, acc, seen => if isDigit c then digits cs (10 * acc + (c.toNat - 48)) true else if seen then some acc else none

/-- `strtol` with base 10 on numbers of any size: `none` if there is nothing to convert. -/
def strtol : List Char → Option Int
  | [] => none
  | c :: cs =>
    if isSpace c then strtol cs
    else if c = '-' then (digits cs 0 false).map (- ·)
    else if c = '+' then digits cs 0 false
    else digits (c :: cs) 0 false

/-- What `std::stoi` can do. -/
inductive Stoi
  | value (z : Int)
  | invalid
  | range
  deriving DecidableEq

/-- `std::stoi`: `invalid_argument` if there is nothing to convert, `out_of_range` if the number is no 32 bit `int`. Characters after
the number are ignored. -/
def stoi (s : List Char) : Stoi :=
  match strtol s with
  | none => .invalid
  | some z => if -2147483648 ≤ z ∧ z ≤ 2147483647 then .value z else .range

/-- `GetIntArg` (src/bench/util/args.cpp:80-88): the handler catches `out_of_range` of `at` and of `stoi`; `invalid_argument` leaves
the function. -/
def getIntArg (s : Manager) (arg : List Char) (dflt : Int) : Res Int :=
  match at? arg s.options with
  | none => .ok dflt
  | some v =>
    match stoi v with
    | .value z => .ok z
    | .range => .ok dflt
    | .invalid => .error .exc

/-- `IsArgSet` (src/bench/util/args.cpp:90-98). -/
def isArgSet (s : Manager) (arg : List Char) : Bool :=
  match at? arg s.options with
  | some _ => true
  | none => false

/-- `SetupBenchArgs` (src/bench/bench_utreexo.cpp:14-21). -/
def setupBenchArgs (s : Manager) : Res Manager := do
  let s ← addArg s "-asymptote=<n1,n2,n3,...>".toList "Test asymptotic growth of the runtime of an algorithm, if supported by the benchmark".toList
  let s ← addArg s "-filter=<regex>".toList ("Regular expression filter to select benchmark by name (default: ".toList ++ ".*".toList ++ ")".toList)
  let s ← addArg s "-min_time=<milliseconds>".toList ("Minimum runtime per benchmark, in milliseconds (default: ".toList ++ "10".toList ++ ")".toList)
  addArg s "-?".toList "Print this help message and exit".toList

/-- What `main` does with its arguments (src/bench/bench_utreexo.cpp:38-98): it prints a help text, or it runs the benchmarks with the
text of the numbers, the minimum time and the filter. An exception ends the program. -/
inductive Action
  | help (text : List Char)
  | run (asymptote : List Char) (minTime : Int) (filter : List Char)

/-- `main` of the benchmark program up to `RunAll` (src/bench/bench_utreexo.cpp:38-98); of the help text only the list of options. -/
def main (argv : List (List Char)) : Res Action := do
  let s ← setupBenchArgs new
  let s := parseParameters s argv
  if isArgSet s "-?".toList || isArgSet s "-h".toList then return .help (getHelpMessage s)
  let minTime ← getIntArg s "-min_time".toList 10
  return .run (getArg s "-asymptote".toList []) minTime (getArg s "-filter".toList ".*".toList)

end Args
end Utreexo
