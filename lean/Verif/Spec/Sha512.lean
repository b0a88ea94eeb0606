import Verif.Spec.Bytes

/-!
# Specification: SHA-512 and SHA-512/256 (FIPS 180-4)

Written from the standard, independently of the code. Section numbers refer to FIPS 180-4. The
constants are not copied but computed from their definition: fractional parts of square and cube
roots of primes (4.2.3, 5.3.5) and, for SHA-512/256, the initial value generation function (5.3.6).
-/

namespace Utreexo
namespace Spec
namespace Sha

/-- A 64-bit word. -/
abbrev Word := BitVec 64

/-! ## Functions (4.1.3) -/

/-- Circular right shift (3.2). -/
def rotr (n : Nat) (x : Word) : Word := x.rotateRight n
/-- Right shift (3.2). -/
def shr (n : Nat) (x : Word) : Word := x >>> n

/-- (4.8) -/
def ch (x y z : Word) : Word := (x &&& y) ^^^ (~~~x &&& z)
/-- (4.9) -/
def maj (x y z : Word) : Word := (x &&& y) ^^^ (x &&& z) ^^^ (y &&& z)
/-- (4.10) -/
def bigSigma0 (x : Word) : Word := rotr 28 x ^^^ rotr 34 x ^^^ rotr 39 x
/-- (4.11) -/
def bigSigma1 (x : Word) : Word := rotr 14 x ^^^ rotr 18 x ^^^ rotr 41 x
/-- (4.12) -/
def smallSigma0 (x : Word) : Word := rotr 1 x ^^^ rotr 8 x ^^^ shr 7 x
/-- (4.13) -/
def smallSigma1 (x : Word) : Word := rotr 19 x ^^^ rotr 61 x ^^^ shr 6 x

/-! ## Constants (4.2.3, 5.3.5) -/

/-- Whether a number is a prime. -/
def isPrime (p : Nat) : Bool := 2 ≤ p && (List.range p).all fun d => d < 2 || p % d ≠ 0

/-- The first eighty primes: the primes up to 409. -/
def primes : List Nat := (List.range 410).filter isPrime

/-- The integer `k`-th root of `m < 2^(k*b)`: the largest `x` with `x^k ≤ m`, bit by bit from the
accumulator `acc`. -/
def iroot (k m : Nat) : Nat → Nat → Nat
  | 0, acc => acc
  | b + 1, acc => iroot k m b (if (acc + 2 ^ b) ^ k ≤ m then acc + 2 ^ b else acc)

/-- The first 64 bits of the fractional part of the `k`-th root of `p`: the root of `p * 2^(64 k)`
is the root of `p` shifted by 64 bits. -/
def fracRoot (k p : Nat) : Word := BitVec.ofNat 64 (iroot k (p * 2 ^ (64 * k)) 72 0)

/-- The constants `K_t` (4.2.3). -/
def K : List Word := primes.map (fracRoot 3)

/-! ## Preprocessing (5.1.2, 5.2.2) -/

/-- The eight registers (and the intermediate hash values). -/
structure Regs where
  (a b c d e f g h : Word)
  deriving DecidableEq

/-- The big-endian encoding of a number in `k` bytes. -/
def toBytes : Nat → Nat → List (BitVec 8)
  | 0, _ => []
  | k + 1, x => toBytes k (x / 256) ++ [BitVec.ofNat 8 (x % 256)]

/-- The padded message (5.1.2), for messages that are a whole number of bytes: a one bit, the
smallest number of zero bits so that 128 bits remain in the last block, the length in bits. -/
def pad (m : List (BitVec 8)) : List (BitVec 8) :=
  let zeros := ((List.range 128).find? fun k => (m.length + 1 + k) % 128 == 112).getD 0
  m ++ [0x80] ++ List.replicate zeros 0 ++ toBytes 16 (8 * m.length)

/-- Not in FIPS 180-4: as `pad`, with the length in bits reduced modulo `2 ^ 64` (it has 128 bits). Below `2 ^ 61` bytes this
is `pad`. -/
def padLow (m : List (BitVec 8)) : List (BitVec 8) :=
  let zeros := ((List.range 128).find? fun k => (m.length + 1 + k) % 128 == 112).getD 0
  m ++ [0x80] ++ List.replicate zeros 0 ++ toBytes 16 (8 * m.length % 2 ^ 64)

/-- The sixteen words of a block of 128 bytes (5.2.2). -/
def blockWords (block : List (BitVec 8)) : List Word :=
  (List.range 16).map fun i => BitVec.ofNat 64 (beValue ((block.drop (8 * i)).take 8))

/-! ## Hash computation (6.4.2) -/

/-- The message schedule: the sixteen words of the block followed by `n` more,
`W_t = σ1(W_{t-2}) + W_{t-7} + σ0(W_{t-15}) + W_{t-16}`. -/
def schedule (words : List Word) : Nat → List Word
  | 0 => words
  | n + 1 =>
    let W := schedule words n
    let w (t : Nat) : Word := W.getD t 0
    let t := n + 16
    W ++ [smallSigma1 (w (t - 2)) + w (t - 7) + smallSigma0 (w (t - 15)) + w (t - 16)]

/-- One step of the compression function. -/
def step (s : Regs) (k w : Word) : Regs :=
  let t1 := s.h + bigSigma1 s.e + ch s.e s.f s.g + k + w
  let t2 := bigSigma0 s.a + maj s.a s.b s.c
  { a := t1 + t2, b := s.a, c := s.b, d := s.c, e := s.d + t1, f := s.e, g := s.f, h := s.g }

/-- The steps for a list of constants and words. -/
def steps (s : Regs) (kw : List (Word × Word)) : Regs := kw.foldl (fun s p => step s p.1 p.2) s

/-- The next intermediate hash value. -/
def compress (s : Regs) (block : List (BitVec 8)) : Regs :=
  let t := steps s (K.zip (schedule (blockWords block) 64))
  { a := s.a + t.a, b := s.b + t.b, c := s.c + t.c, d := s.d + t.d
    e := s.e + t.e, f := s.f + t.f, g := s.g + t.g, h := s.h + t.h }

/-- Processing the first `n` blocks of a byte string. -/
def compressBlocks (s : Regs) (n : Nat) (bytes : List (BitVec 8)) : Regs :=
  (List.range n).foldl (fun s i => compress s ((bytes.drop (128 * i)).take 128)) s

/-- The bytes of the registers. -/
def digest (s : Regs) : List (BitVec 8) :=
  [s.a, s.b, s.c, s.d, s.e, s.f, s.g, s.h].flatMap fun w => toBytes 8 w.toNat

/-- The SHA-512 computation from an initial hash value. -/
def hashFrom (iv : Regs) (m : List (BitVec 8)) : Regs :=
  compressBlocks iv ((pad m).length / 128) (pad m)

/-- Not in FIPS 180-4: the computation with the length reduced modulo `2 ^ 64`. -/
def hashLow (iv : Regs) (m : List (BitVec 8)) : Regs :=
  compressBlocks iv ((padLow m).length / 128) (padLow m)

/-- The initial hash value of SHA-512 (5.3.5): square roots of the first eight primes. -/
def iv512 : Regs :=
  let r (i : Nat) : Word := fracRoot 2 (primes.getD i 0)
  { a := r 0, b := r 1, c := r 2, d := r 3, e := r 4, f := r 5, g := r 6, h := r 7 }

/-- SHA-512. -/
def sha512 (m : List (BitVec 8)) : List (BitVec 8) := digest (hashFrom iv512 m)

/-- The initial hash value of SHA-512/256 (5.3.6): the SHA-512 computation of the name of the
algorithm in ASCII, from the initial value of SHA-512 with each word XORed with `a5a5a5a5a5a5a5a5`. -/
def iv256 : Regs :=
  let x (w : Word) : Word := w ^^^ 0xa5a5a5a5a5a5a5a5
  hashFrom
    { a := x iv512.a, b := x iv512.b, c := x iv512.c, d := x iv512.d
      e := x iv512.e, f := x iv512.f, g := x iv512.g, h := x iv512.h }
    ("SHA-512/256".toList.map fun c => BitVec.ofNat 8 c.toNat)

/-- SHA-512/256 (6.7): the leftmost 256 bits. -/
def sha512_256 (m : List (BitVec 8)) : List (BitVec 8) := (digest (hashFrom iv256 m)).take 32

end Sha
end Spec
end Utreexo
