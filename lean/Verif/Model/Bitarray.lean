import Verif.Base
import Verif.Model.Mem
/-! Model of include/bitarray.h for arrays of unsigned char and indices that are not negative (size_t). CHAR_BIT is 8. -/
namespace Ulz.Bitarray

/-- include/bitarray.h:16: `BYTEM`, with arguments 0 or 1. The arguments are the most significant bit first. -/
def BYTEM (b7 b6 b5 b4 b3 b2 b1 b0 : Bool) : Byte :=
  let v (b : Bool) : Nat := if b then 1 else 0
  BitVec.ofNat 8 (v b0 ||| v b1 <<< 1 ||| v b2 <<< 2 ||| v b3 <<< 3 ||| v b4 <<< 4 ||| v b5 <<< 5 ||| v b6 <<< 6 ||| v b7 <<< 7)

/-- include/bitarray.h:17: `BYTEL`; the arguments are the least significant bit first. -/
def BYTEL (b0 b1 b2 b3 b4 b5 b6 b7 : Bool) : Byte :=
  let v (b : Bool) : Nat := if b then 1 else 0
  BitVec.ofNat 8 (v b0 ||| v b1 <<< 1 ||| v b2 <<< 2 ||| v b3 <<< 3 ||| v b4 <<< 4 ||| v b5 <<< 5 ||| v b6 <<< 6 ||| v b7 <<< 7)

/-- include/bitarray.h:19. -/
def BA_SIZE_REQUIRED (n : Nat) : Nat := n / 8 + if n % 8 ≠ 0 then 1 else 0

/-- include/bitarray.h:22: `BA_GET`; the byte is promoted to int, where `1 << 7` fits. -/
def BA_GET (x : List Byte) (y : Nat) : C Bool := do
  pure ((← rd x (y / 8)) &&& (1#8 <<< (y % 8)) ≠ 0)

/-- include/bitarray.h:23. -/
def BA_GET_SWAPPED (x : List Byte) (y : Nat) : C Bool := BA_GET x (y / 8 * 8 + (7 - y % 8))

/-- include/bitarray.h:25-27. -/
def BA_SET_TRUE (x : List Byte) (y : Nat) : C (List Byte) := do
  wr x (y / 8) ((← rd x (y / 8)) ||| (1#8 <<< (y % 8)))

/-- include/bitarray.h:28-30. -/
def BA_SET_FALSE (x : List Byte) (y : Nat) : C (List Byte) := do
  wr x (y / 8) ((← rd x (y / 8)) &&& ~~~(1#8 <<< (y % 8)))

/-- include/bitarray.h:31. -/
def BA_SET (x : List Byte) (y : Nat) (c : Bool) : C (List Byte) := if c then BA_SET_TRUE x y else BA_SET_FALSE x y

end Ulz.Bitarray
