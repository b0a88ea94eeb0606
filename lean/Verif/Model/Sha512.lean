import Verif.Model.Codec

/-!
# Model of `CSHA512` (src/crypto/sha512.h, src/crypto/sha512.cpp)

The 80 rounds of `Transform` are transcribed line by line; a call `Round(a, ..., k, w)`, which
updates two of its arguments in place, is written in continuation style: `rnd a ... k w fun d h =>`
rebinds the two names for the following lines. Assignments to `w0 ... w15` are `let` rebindings.
-/

namespace Utreexo
namespace Sha

/-- `uint64_t` in the hasher. -/
abbrev Word := BitVec 64

/-- `Ch` (src/crypto/sha512.cpp:15). -/
def Ch (x y z : Word) : Word := z ^^^ (x &&& (y ^^^ z))
/-- `Maj` (src/crypto/sha512.cpp:16). -/
def Maj (x y z : Word) : Word := (x &&& y) ||| (z &&& (x ||| y))
/-- `Sigma0` (src/crypto/sha512.cpp:17). -/
def Sigma0 (x : Word) : Word :=
  (x >>> 28 ||| x <<< 36) ^^^ (x >>> 34 ||| x <<< 30) ^^^ (x >>> 39 ||| x <<< 25)
/-- `Sigma1` (src/crypto/sha512.cpp:18). -/
def Sigma1 (x : Word) : Word :=
  (x >>> 14 ||| x <<< 50) ^^^ (x >>> 18 ||| x <<< 46) ^^^ (x >>> 41 ||| x <<< 23)
/-- `sigma0` (src/crypto/sha512.cpp:19). -/
def sigma0 (x : Word) : Word :=
  (x >>> 1 ||| x <<< 63) ^^^ (x >>> 8 ||| x <<< 56) ^^^ (x >>> 7)
/-- `sigma1` (src/crypto/sha512.cpp:20). -/
def sigma1 (x : Word) : Word :=
  (x >>> 19 ||| x <<< 45) ^^^ (x >>> 61 ||| x <<< 3) ^^^ (x >>> 6)

/-- `Round` (src/crypto/sha512.cpp:23-29): the continuation receives the new values of the two
reference parameters `d` and `h`. -/
def rnd {α : Type} (a b c d e f g h : Word) (k w : Word) (cont : Word → Word → α) : α :=
  let t1 := h + Sigma1 e + Ch e f g + k + w
  let t2 := Sigma0 a + Maj a b c
  cont (d + t1) (t1 + t2)

/-- The eight state words `s[0..7]`. -/
structure S8 where
  (a b c d e f g h : Word)
  deriving DecidableEq, Repr

/-- The sixteen message schedule variables. -/
structure W16 where
  (w0 w1 w2 w3 w4 w5 w6 w7 w8 w9 w10 w11 w12 w13 w14 w15 : Word)
  deriving DecidableEq, Repr

/-- `Initialize` (src/crypto/sha512.cpp:32-42). -/
def init512 : S8 :=
  { a := 0x6a09e667f3bcc908
    b := 0xbb67ae8584caa73b
    c := 0x3c6ef372fe94f82b
    d := 0xa54ff53a5f1d36f1
    e := 0x510e527fade682d1
    f := 0x9b05688c2b3e6c1f
    g := 0x1f83d9abfb41bd6b
    h := 0x5be0cd19137e2179 }

/-- `Initialize256` (src/crypto/sha512.cpp:45-55). -/
def init256 : S8 :=
  { a := 0x22312194fc2bf72c
    b := 0x9f555fa3c84c64c2
    c := 0x2393b86b6f53b151
    d := 0x963877195940eabd
    e := 0x96283ee2a88effe3
    f := 0xbe5e1e2553863992
    g := 0x2b0199fc2c85b8aa
    h := 0x0eb72ddc81c52ca2 }

/-- `ReadBE64(chunk + off)`. -/
def readW (big : Bool) (chunk : List Byte) (off : Nat) : Word := Codec.readBE64 big (chunk.drop off)

/-- Rounds 0-15 (src/crypto/sha512.cpp:63-78), which load the message words. -/
def block0 (big : Bool) (s : S8) (chunk : List Byte) : S8 × W16 :=
  let ⟨a, b, c, d, e, f, g, h⟩ := s
  let w0 := readW big chunk 0
  rnd a b c d e f g h 0x428a2f98d728ae22 w0 fun d h =>
  let w1 := readW big chunk 8
  rnd h a b c d e f g 0x7137449123ef65cd w1 fun c g =>
  let w2 := readW big chunk 16
  rnd g h a b c d e f 0xb5c0fbcfec4d3b2f w2 fun b f =>
  let w3 := readW big chunk 24
  rnd f g h a b c d e 0xe9b5dba58189dbbc w3 fun a e =>
  let w4 := readW big chunk 32
  rnd e f g h a b c d 0x3956c25bf348b538 w4 fun h d =>
  let w5 := readW big chunk 40
  rnd d e f g h a b c 0x59f111f1b605d019 w5 fun g c =>
  let w6 := readW big chunk 48
  rnd c d e f g h a b 0x923f82a4af194f9b w6 fun f b =>
  let w7 := readW big chunk 56
  rnd b c d e f g h a 0xab1c5ed5da6d8118 w7 fun e a =>
  let w8 := readW big chunk 64
  rnd a b c d e f g h 0xd807aa98a3030242 w8 fun d h =>
  let w9 := readW big chunk 72
  rnd h a b c d e f g 0x12835b0145706fbe w9 fun c g =>
  let w10 := readW big chunk 80
  rnd g h a b c d e f 0x243185be4ee4b28c w10 fun b f =>
  let w11 := readW big chunk 88
  rnd f g h a b c d e 0x550c7dc3d5ffb4e2 w11 fun a e =>
  let w12 := readW big chunk 96
  rnd e f g h a b c d 0x72be5d74f27b896f w12 fun h d =>
  let w13 := readW big chunk 104
  rnd d e f g h a b c 0x80deb1fe3b1696b1 w13 fun g c =>
  let w14 := readW big chunk 112
  rnd c d e f g h a b 0x9bdc06a725c71235 w14 fun f b =>
  let w15 := readW big chunk 120
  rnd b c d e f g h a 0xc19bf174cf692694 w15 fun e a =>
  (⟨a, b, c, d, e, f, g, h⟩, ⟨w0, w1, w2, w3, w4, w5, w6, w7, w8, w9, w10, w11, w12, w13, w14, w15⟩)

/-- Rounds 16-31 (src/crypto/sha512.cpp:80-95). -/
def block1 (s : S8) (w : W16) : S8 × W16 :=
  let ⟨a, b, c, d, e, f, g, h⟩ := s
  let ⟨w0, w1, w2, w3, w4, w5, w6, w7, w8, w9, w10, w11, w12, w13, w14, w15⟩ := w
  let w0 := w0 + (sigma1 w14 + w9 + sigma0 w1)
  rnd a b c d e f g h 0xe49b69c19ef14ad2 w0 fun d h =>
  let w1 := w1 + (sigma1 w15 + w10 + sigma0 w2)
  rnd h a b c d e f g 0xefbe4786384f25e3 w1 fun c g =>
  let w2 := w2 + (sigma1 w0 + w11 + sigma0 w3)
  rnd g h a b c d e f 0x0fc19dc68b8cd5b5 w2 fun b f =>
  let w3 := w3 + (sigma1 w1 + w12 + sigma0 w4)
  rnd f g h a b c d e 0x240ca1cc77ac9c65 w3 fun a e =>
  let w4 := w4 + (sigma1 w2 + w13 + sigma0 w5)
  rnd e f g h a b c d 0x2de92c6f592b0275 w4 fun h d =>
  let w5 := w5 + (sigma1 w3 + w14 + sigma0 w6)
  rnd d e f g h a b c 0x4a7484aa6ea6e483 w5 fun g c =>
  let w6 := w6 + (sigma1 w4 + w15 + sigma0 w7)
  rnd c d e f g h a b 0x5cb0a9dcbd41fbd4 w6 fun f b =>
  let w7 := w7 + (sigma1 w5 + w0 + sigma0 w8)
  rnd b c d e f g h a 0x76f988da831153b5 w7 fun e a =>
  let w8 := w8 + (sigma1 w6 + w1 + sigma0 w9)
  rnd a b c d e f g h 0x983e5152ee66dfab w8 fun d h =>
  let w9 := w9 + (sigma1 w7 + w2 + sigma0 w10)
  rnd h a b c d e f g 0xa831c66d2db43210 w9 fun c g =>
  let w10 := w10 + (sigma1 w8 + w3 + sigma0 w11)
  rnd g h a b c d e f 0xb00327c898fb213f w10 fun b f =>
  let w11 := w11 + (sigma1 w9 + w4 + sigma0 w12)
  rnd f g h a b c d e 0xbf597fc7beef0ee4 w11 fun a e =>
  let w12 := w12 + (sigma1 w10 + w5 + sigma0 w13)
  rnd e f g h a b c d 0xc6e00bf33da88fc2 w12 fun h d =>
  let w13 := w13 + (sigma1 w11 + w6 + sigma0 w14)
  rnd d e f g h a b c 0xd5a79147930aa725 w13 fun g c =>
  let w14 := w14 + (sigma1 w12 + w7 + sigma0 w15)
  rnd c d e f g h a b 0x06ca6351e003826f w14 fun f b =>
  let w15 := w15 + (sigma1 w13 + w8 + sigma0 w0)
  rnd b c d e f g h a 0x142929670a0e6e70 w15 fun e a =>
  (⟨a, b, c, d, e, f, g, h⟩, ⟨w0, w1, w2, w3, w4, w5, w6, w7, w8, w9, w10, w11, w12, w13, w14, w15⟩)

/-- Rounds 32-47 (src/crypto/sha512.cpp:97-112). -/
def block2 (s : S8) (w : W16) : S8 × W16 :=
  let ⟨a, b, c, d, e, f, g, h⟩ := s
  let ⟨w0, w1, w2, w3, w4, w5, w6, w7, w8, w9, w10, w11, w12, w13, w14, w15⟩ := w
  let w0 := w0 + (sigma1 w14 + w9 + sigma0 w1)
  rnd a b c d e f g h 0x27b70a8546d22ffc w0 fun d h =>
  let w1 := w1 + (sigma1 w15 + w10 + sigma0 w2)
  rnd h a b c d e f g 0x2e1b21385c26c926 w1 fun c g =>
  let w2 := w2 + (sigma1 w0 + w11 + sigma0 w3)
  rnd g h a b c d e f 0x4d2c6dfc5ac42aed w2 fun b f =>
  let w3 := w3 + (sigma1 w1 + w12 + sigma0 w4)
  rnd f g h a b c d e 0x53380d139d95b3df w3 fun a e =>
  let w4 := w4 + (sigma1 w2 + w13 + sigma0 w5)
  rnd e f g h a b c d 0x650a73548baf63de w4 fun h d =>
  let w5 := w5 + (sigma1 w3 + w14 + sigma0 w6)
  rnd d e f g h a b c 0x766a0abb3c77b2a8 w5 fun g c =>
  let w6 := w6 + (sigma1 w4 + w15 + sigma0 w7)
  rnd c d e f g h a b 0x81c2c92e47edaee6 w6 fun f b =>
  let w7 := w7 + (sigma1 w5 + w0 + sigma0 w8)
  rnd b c d e f g h a 0x92722c851482353b w7 fun e a =>
  let w8 := w8 + (sigma1 w6 + w1 + sigma0 w9)
  rnd a b c d e f g h 0xa2bfe8a14cf10364 w8 fun d h =>
  let w9 := w9 + (sigma1 w7 + w2 + sigma0 w10)
  rnd h a b c d e f g 0xa81a664bbc423001 w9 fun c g =>
  let w10 := w10 + (sigma1 w8 + w3 + sigma0 w11)
  rnd g h a b c d e f 0xc24b8b70d0f89791 w10 fun b f =>
  let w11 := w11 + (sigma1 w9 + w4 + sigma0 w12)
  rnd f g h a b c d e 0xc76c51a30654be30 w11 fun a e =>
  let w12 := w12 + (sigma1 w10 + w5 + sigma0 w13)
  rnd e f g h a b c d 0xd192e819d6ef5218 w12 fun h d =>
  let w13 := w13 + (sigma1 w11 + w6 + sigma0 w14)
  rnd d e f g h a b c 0xd69906245565a910 w13 fun g c =>
  let w14 := w14 + (sigma1 w12 + w7 + sigma0 w15)
  rnd c d e f g h a b 0xf40e35855771202a w14 fun f b =>
  let w15 := w15 + (sigma1 w13 + w8 + sigma0 w0)
  rnd b c d e f g h a 0x106aa07032bbd1b8 w15 fun e a =>
  (⟨a, b, c, d, e, f, g, h⟩, ⟨w0, w1, w2, w3, w4, w5, w6, w7, w8, w9, w10, w11, w12, w13, w14, w15⟩)

/-- Rounds 48-63 (src/crypto/sha512.cpp:114-129). -/
def block3 (s : S8) (w : W16) : S8 × W16 :=
  let ⟨a, b, c, d, e, f, g, h⟩ := s
  let ⟨w0, w1, w2, w3, w4, w5, w6, w7, w8, w9, w10, w11, w12, w13, w14, w15⟩ := w
  let w0 := w0 + (sigma1 w14 + w9 + sigma0 w1)
  rnd a b c d e f g h 0x19a4c116b8d2d0c8 w0 fun d h =>
  let w1 := w1 + (sigma1 w15 + w10 + sigma0 w2)
  rnd h a b c d e f g 0x1e376c085141ab53 w1 fun c g =>
  let w2 := w2 + (sigma1 w0 + w11 + sigma0 w3)
  rnd g h a b c d e f 0x2748774cdf8eeb99 w2 fun b f =>
  let w3 := w3 + (sigma1 w1 + w12 + sigma0 w4)
  rnd f g h a b c d e 0x34b0bcb5e19b48a8 w3 fun a e =>
  let w4 := w4 + (sigma1 w2 + w13 + sigma0 w5)
  rnd e f g h a b c d 0x391c0cb3c5c95a63 w4 fun h d =>
  let w5 := w5 + (sigma1 w3 + w14 + sigma0 w6)
  rnd d e f g h a b c 0x4ed8aa4ae3418acb w5 fun g c =>
  let w6 := w6 + (sigma1 w4 + w15 + sigma0 w7)
  rnd c d e f g h a b 0x5b9cca4f7763e373 w6 fun f b =>
  let w7 := w7 + (sigma1 w5 + w0 + sigma0 w8)
  rnd b c d e f g h a 0x682e6ff3d6b2b8a3 w7 fun e a =>
  let w8 := w8 + (sigma1 w6 + w1 + sigma0 w9)
  rnd a b c d e f g h 0x748f82ee5defb2fc w8 fun d h =>
  let w9 := w9 + (sigma1 w7 + w2 + sigma0 w10)
  rnd h a b c d e f g 0x78a5636f43172f60 w9 fun c g =>
  let w10 := w10 + (sigma1 w8 + w3 + sigma0 w11)
  rnd g h a b c d e f 0x84c87814a1f0ab72 w10 fun b f =>
  let w11 := w11 + (sigma1 w9 + w4 + sigma0 w12)
  rnd f g h a b c d e 0x8cc702081a6439ec w11 fun a e =>
  let w12 := w12 + (sigma1 w10 + w5 + sigma0 w13)
  rnd e f g h a b c d 0x90befffa23631e28 w12 fun h d =>
  let w13 := w13 + (sigma1 w11 + w6 + sigma0 w14)
  rnd d e f g h a b c 0xa4506cebde82bde9 w13 fun g c =>
  let w14 := w14 + (sigma1 w12 + w7 + sigma0 w15)
  rnd c d e f g h a b 0xbef9a3f7b2c67915 w14 fun f b =>
  let w15 := w15 + (sigma1 w13 + w8 + sigma0 w0)
  rnd b c d e f g h a 0xc67178f2e372532b w15 fun e a =>
  (⟨a, b, c, d, e, f, g, h⟩, ⟨w0, w1, w2, w3, w4, w5, w6, w7, w8, w9, w10, w11, w12, w13, w14, w15⟩)

/-- Rounds 64-79 (src/crypto/sha512.cpp:131-146). -/
def block4 (s : S8) (w : W16) : S8 × W16 :=
  let ⟨a, b, c, d, e, f, g, h⟩ := s
  let ⟨w0, w1, w2, w3, w4, w5, w6, w7, w8, w9, w10, w11, w12, w13, w14, w15⟩ := w
  let w0 := w0 + (sigma1 w14 + w9 + sigma0 w1)
  rnd a b c d e f g h 0xca273eceea26619c w0 fun d h =>
  let w1 := w1 + (sigma1 w15 + w10 + sigma0 w2)
  rnd h a b c d e f g 0xd186b8c721c0c207 w1 fun c g =>
  let w2 := w2 + (sigma1 w0 + w11 + sigma0 w3)
  rnd g h a b c d e f 0xeada7dd6cde0eb1e w2 fun b f =>
  let w3 := w3 + (sigma1 w1 + w12 + sigma0 w4)
  rnd f g h a b c d e 0xf57d4f7fee6ed178 w3 fun a e =>
  let w4 := w4 + (sigma1 w2 + w13 + sigma0 w5)
  rnd e f g h a b c d 0x06f067aa72176fba w4 fun h d =>
  let w5 := w5 + (sigma1 w3 + w14 + sigma0 w6)
  rnd d e f g h a b c 0x0a637dc5a2c898a6 w5 fun g c =>
  let w6 := w6 + (sigma1 w4 + w15 + sigma0 w7)
  rnd c d e f g h a b 0x113f9804bef90dae w6 fun f b =>
  let w7 := w7 + (sigma1 w5 + w0 + sigma0 w8)
  rnd b c d e f g h a 0x1b710b35131c471b w7 fun e a =>
  let w8 := w8 + (sigma1 w6 + w1 + sigma0 w9)
  rnd a b c d e f g h 0x28db77f523047d84 w8 fun d h =>
  let w9 := w9 + (sigma1 w7 + w2 + sigma0 w10)
  rnd h a b c d e f g 0x32caab7b40c72493 w9 fun c g =>
  let w10 := w10 + (sigma1 w8 + w3 + sigma0 w11)
  rnd g h a b c d e f 0x3c9ebe0a15c9bebc w10 fun b f =>
  let w11 := w11 + (sigma1 w9 + w4 + sigma0 w12)
  rnd f g h a b c d e 0x431d67c49c100d4c w11 fun a e =>
  let w12 := w12 + (sigma1 w10 + w5 + sigma0 w13)
  rnd e f g h a b c d 0x4cc5d4becb3e42b6 w12 fun h d =>
  let w13 := w13 + (sigma1 w11 + w6 + sigma0 w14)
  rnd d e f g h a b c 0x597f299cfc657e2a w13 fun g c =>
  rnd c d e f g h a b 0x5fcb6fab3ad6faec (w14 + sigma1 w12 + w7 + sigma0 w15) fun f b =>
  rnd b c d e f g h a 0x6c44198c4a475817 (w15 + sigma1 w13 + w8 + sigma0 w0) fun e a =>
  (⟨a, b, c, d, e, f, g, h⟩, ⟨w0, w1, w2, w3, w4, w5, w6, w7, w8, w9, w10, w11, w12, w13, w14, w15⟩)

/-- `Transform` (src/crypto/sha512.cpp:58-156). -/
def transform (big : Bool) (s : S8) (chunk : List Byte) : S8 :=
  let (t, w) := block0 big s chunk
  let (t, w) := block1 t w
  let (t, w) := block2 t w
  let (t, w) := block3 t w
  let (t, _) := block4 t w
  { a := s.a + t.a, b := s.b + t.b, c := s.c + t.c, d := s.d + t.d
    e := s.e + t.e, f := s.f + t.f, g := s.g + t.g, h := s.h + t.h }

/-- The members of `CSHA512` (src/crypto/sha512.h:17-19). -/
structure Hasher where
  s : S8
  buf : List Byte
  bytes : Nat
  deriving DecidableEq, Repr

/-- `CSHA512::CSHA512()` (src/crypto/sha512.cpp:166-169); `junk` is the uninitialised buffer. -/
def new512 (junk : List Byte) : Hasher := { s := init512, buf := junk, bytes := 0 }

/-- `CSHA512::CSHA512(int)` (src/crypto/sha512.cpp:171-180). -/
def new (outputSize : Nat) (junk : List Byte) : Hasher :=
  { s := if outputSize = 32 then init256 else init512, buf := junk, bytes := 0 }

/-- The loop over full chunks in `Write` (src/crypto/sha512.cpp:194-199). -/
def chunkLoop (big : Bool) : Nat → S8 → Nat → List Byte → S8 × Nat × List Byte
  | 0, s, bytes, data => (s, bytes, data)
  | fuel + 1, s, bytes, data =>
    if data.length ≥ 128 then
      chunkLoop big fuel (transform big s (data.take 128)) (wrap64 (bytes + 128)) (data.drop 128)
    else (s, bytes, data)

/-- `CSHA512::Write` (src/crypto/sha512.cpp:182-206). `data` is the whole input range; the loop
needs at most `data.length` iterations. -/
def write (big : Bool) (x : Hasher) (data : List Byte) : Res Hasher := do
  let bufsize := x.bytes % 128
  let (x, bufsize, data) ←
    if bufsize ≠ 0 ∧ bufsize + data.length ≥ 128 then do
      let buf ← memWrite x.buf bufsize (data.take (128 - bufsize))
      let x' : Hasher := { s := transform big x.s buf, buf := buf, bytes := wrap64 (x.bytes + (128 - bufsize)) }
      pure (x', 0, data.drop (128 - bufsize))
    else pure (x, bufsize, data)
  let (s, bytes, data) := chunkLoop big data.length x.s x.bytes data
  if data.length > 0 then
    let buf ← memWrite x.buf bufsize data
    return { s := s, buf := buf, bytes := wrap64 (bytes + data.length) }
  else return { x with s := s, bytes := bytes }

/-- The static `pad` array (src/crypto/sha512.cpp:210, 227). -/
def pad : List Byte := 0x80#8 :: List.replicate 127 0#8

/-- The common part of `Finalize` and `Finalize256` (src/crypto/sha512.cpp:210-214, 227-231).
`239 - (bytes % 128)` is positive. -/
def finish (big : Bool) (x : Hasher) : Res Hasher := do
  let sizedesc := List.replicate 8 0#8 ++ Codec.writeBE64 big (BitVec.ofNat 64 x.bytes <<< 3)
  let len := 1 + ((239 - (x.bytes % 128)) % 128)
  let p ← memRead pad 0 len
  let x ← write big x p
  write big x sizedesc

/-- `CSHA512::Finalize` (src/crypto/sha512.cpp:208-223). -/
def finalize (big : Bool) (x : Hasher) : Res (List Byte) := do
  let x ← finish big x
  let w := Codec.writeBE64 big
  return w x.s.a ++ w x.s.b ++ w x.s.c ++ w x.s.d ++ w x.s.e ++ w x.s.f ++ w x.s.g ++ w x.s.h

/-- `CSHA512::Finalize256` (src/crypto/sha512.cpp:225-236). -/
def finalize256 (big : Bool) (x : Hasher) : Res (List Byte) := do
  let x ← finish big x
  let w := Codec.writeBE64 big
  return w x.s.a ++ w x.s.b ++ w x.s.c ++ w x.s.d

/-- `CSHA512::Reset` (src/crypto/sha512.cpp:238-243): always the SHA-512 initial state. -/
def reset (x : Hasher) : Hasher := { x with s := init512, bytes := 0 }

/-- `Accumulator::ParentHash` (src/accumulator.cpp:62-68). -/
def parentHash (big : Bool) (junk : List Byte) (left right : Hash32) : Res (List Byte) := do
  let x := new 32 junk
  let x ← write big x left.val
  let x ← write big x right.val
  finalize256 big x

end Sha
end Utreexo
