import Verif.Model.C

/-!
# Model of the integer codecs (src/crypto/common.h, src/compat/endian.h, src/compat/byteswap.h)

Both byte orders of the host are modelled: `big = true` is `WORDS_BIGENDIAN`.
-/

namespace Utreexo

/-- `uint8_t` / `unsigned char`. -/
abbrev Byte := BitVec 8

namespace Codec

/-- Value of bytes, least significant first. -/
def leNat : List Byte → Nat
  | [] => 0
  | b :: bs => b.toNat + 256 * leNat bs

/-- The `k` low bytes of a value, least significant first. -/
def leBytes : Nat → Nat → List Byte
  | 0, _ => []
  | k + 1, x => BitVec.ofNat 8 x :: leBytes k (x / 256)

/-- `memcpy` of bytes into an integer object on a host of the given byte order. -/
def hostLoad (big : Bool) (w : Nat) (bs : List Byte) : BitVec w :=
  BitVec.ofNat w (leNat (if big then bs.reverse else bs))

/-- `memcpy` of an integer object into `k` bytes. -/
def hostStore (big : Bool) {w : Nat} (k : Nat) (x : BitVec w) : List Byte :=
  if big then (leBytes k x.toNat).reverse else leBytes k x.toNat

/-- `bswap_16` (src/compat/byteswap.h:29-32). The operand is promoted to `int`, so no bit is lost
before the conversion back to 16 bits. -/
def bswap16 (x : BitVec 16) : BitVec 16 := (x >>> 8) ||| (x <<< 8)

/-- `bswap_32` (src/compat/byteswap.h:36-40). -/
def bswap32 (x : BitVec 32) : BitVec 32 :=
  ((x &&& 0xff000000#32) >>> 24) ||| ((x &&& 0x00ff0000#32) >>> 8) |||
    ((x &&& 0x0000ff00#32) <<< 8) ||| ((x &&& 0x000000ff#32) <<< 24)

/-- `bswap_64` (src/compat/byteswap.h:44-54). -/
def bswap64 (x : BitVec 64) : BitVec 64 :=
  ((x &&& 0xff00000000000000#64) >>> 56)
  ||| ((x &&& 0x00ff000000000000#64) >>> 40)
  ||| ((x &&& 0x0000ff0000000000#64) >>> 24)
  ||| ((x &&& 0x000000ff00000000#64) >>> 8)
  ||| ((x &&& 0x00000000ff000000#64) <<< 8)
  ||| ((x &&& 0x0000000000ff0000#64) <<< 24)
  ||| ((x &&& 0x000000000000ff00#64) <<< 40)
  ||| ((x &&& 0x00000000000000ff#64) <<< 56)

/-- `le16toh` / `htole16` (src/compat/endian.h). -/
def le16 (big : Bool) (x : BitVec 16) : BitVec 16 := if big then bswap16 x else x
/-- `le32toh` / `htole32`. -/
def le32 (big : Bool) (x : BitVec 32) : BitVec 32 := if big then bswap32 x else x
/-- `le64toh` / `htole64`. -/
def le64 (big : Bool) (x : BitVec 64) : BitVec 64 := if big then bswap64 x else x
/-- `be32toh` / `htobe32`. -/
def be32 (big : Bool) (x : BitVec 32) : BitVec 32 := if big then x else bswap32 x
/-- `be64toh` / `htobe64`. -/
def be64 (big : Bool) (x : BitVec 64) : BitVec 64 := if big then x else bswap64 x

/-- `ReadLE16` (src/crypto/common.h:17-22); the argument is the bytes at the pointer. -/
def readLE16 (big : Bool) (bs : List Byte) : BitVec 16 := le16 big (hostLoad big 16 (bs.take 2))
/-- `ReadLE32` (src/crypto/common.h:24-29). -/
def readLE32 (big : Bool) (bs : List Byte) : BitVec 32 := le32 big (hostLoad big 32 (bs.take 4))
/-- `ReadLE64` (src/crypto/common.h:31-36). -/
def readLE64 (big : Bool) (bs : List Byte) : BitVec 64 := le64 big (hostLoad big 64 (bs.take 8))
/-- `WriteLE16` (src/crypto/common.h:38-42). -/
def writeLE16 (big : Bool) (x : BitVec 16) : List Byte := hostStore big 2 (le16 big x)
/-- `WriteLE32` (src/crypto/common.h:44-48). -/
def writeLE32 (big : Bool) (x : BitVec 32) : List Byte := hostStore big 4 (le32 big x)
/-- `WriteLE64` (src/crypto/common.h:50-54). -/
def writeLE64 (big : Bool) (x : BitVec 64) : List Byte := hostStore big 8 (le64 big x)
/-- `ReadBE32` (src/crypto/common.h:56-61). -/
def readBE32 (big : Bool) (bs : List Byte) : BitVec 32 := be32 big (hostLoad big 32 (bs.take 4))
/-- `ReadBE64` (src/crypto/common.h:63-68). -/
def readBE64 (big : Bool) (bs : List Byte) : BitVec 64 := be64 big (hostLoad big 64 (bs.take 8))
/-- `WriteBE32` (src/crypto/common.h:70-74). -/
def writeBE32 (big : Bool) (x : BitVec 32) : List Byte := hostStore big 4 (be32 big x)
/-- `WriteBE64` (src/crypto/common.h:76-80). -/
def writeBE64 (big : Bool) (x : BitVec 64) : List Byte := hostStore big 8 (be64 big x)

end Codec

/-- `std::array<uint8_t, 32>`. -/
abbrev Hash32 := { l : List Byte // l.length = 32 }

/-- Reading `k` bytes at offset `off` of a buffer; out of bounds is undefined behaviour. -/
def memRead (buf : List Byte) (off k : Nat) : Res (List Byte) :=
  if off + k ≤ buf.length then .ok ((buf.drop off).take k) else .error .ub

/-- Writing bytes at offset `off` of a buffer; out of bounds is undefined behaviour. -/
def memWrite (buf : List Byte) (off : Nat) (bs : List Byte) : Res (List Byte) :=
  if off + bs.length ≤ buf.length then .ok (buf.take off ++ bs ++ buf.drop (off + bs.length))
  else .error .ub

/-- `off += k` on an `int`: overflow is undefined behaviour. -/
def addInt (off k : Nat) : Res Nat := if off + k < 2147483648 then .ok (off + k) else .error .ub

end Utreexo
