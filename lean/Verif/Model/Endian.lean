import Verif.Base
/-! Model of include/endianness.h. `little` tells whether the machine is little-endian; otherwise it is big-endian. -/
namespace Ulz.Endian

/-- include/endianness.h:43: `byteswap16` of a `uint16_t`. It is promoted to (32-bit) int; the result is converted back. -/
def byteswap16 (x : BitVec 16) : BitVec 16 :=
  let x := x.setWidth 32
  (((x &&& 0x00ff) <<< 8) ||| ((x &&& 0xff00) >>> 8)).setWidth 16

/-- include/endianness.h:45-47: `byteswap32` of a `uint32_t`. -/
def byteswap32 (x : BitVec 32) : BitVec 32 :=
  ((x &&& 0xff000000) >>> 24) ||| ((x &&& 0x00ff0000) >>> 8) ||| ((x &&& 0x0000ff00) <<< 8) ||| ((x &&& 0x000000ff) <<< 24)

/-- include/endianness.h:51-60. Reading `l` of a union whose `ll` was written: on a little-endian machine `l[0]` is the low
    and `l[1]` the high half, on a big-endian one it is the other way round. -/
def halves (little : Bool) (x : BitVec 64) : BitVec 32 × BitVec 32 :=
  let lo := x.setWidth 32
  let hi := (x >>> 32).setWidth 32
  if little then (lo, hi) else (hi, lo)

/-- Reading `ll` of a union whose `l` was written. -/
def joined (little : Bool) (l0 l1 : BitVec 32) : BitVec 64 :=
  if little then l0.setWidth 64 ||| (l1.setWidth 64 <<< 32) else l1.setWidth 64 ||| (l0.setWidth 64 <<< 32)

/-- include/endianness.h:51-60. -/
def byteswap64 (little : Bool) (x : BitVec 64) : BitVec 64 :=
  let (w0, w1) := halves little x
  let r0 := byteswap32 w1
  let r1 := byteswap32 w0
  joined little r0 r1

/-- include/endianness.h:62 and 65. -/
def le32 (little : Bool) (x : BitVec 32) : BitVec 32 := if little then x else byteswap32 x

/-- include/endianness.h:63 and 66. -/
def le16 (little : Bool) (x : BitVec 16) : BitVec 16 := if little then x else byteswap16 x

end Ulz.Endian
