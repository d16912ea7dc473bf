import Verif.Base
/-! Block-wise memory access and allocation, used by the container models. -/
namespace Ulz

/-- `n` bytes of a buffer from offset `i` on (ISO C: access of an object of `n` bytes). -/
def rdN (b : List Byte) (i n : Nat) : C (List Byte) :=
  if i + n ≤ b.length then .ok ((b.drop i).take n) else .error .oobRead

/-- ISO C `memcpy(b + i, xs, |xs|)` from another object. -/
def wrN (b : List Byte) (i : Nat) (xs : List Byte) : C (List Byte) :=
  if i + xs.length ≤ b.length then .ok (put b i xs) else .error .oobWrite

/-- ISO C `memmove(b + dst, b + src, n)` inside one object. -/
def memmove (b : List Byte) (dst src n : Nat) : C (List Byte) := do
  let xs ← rdN b src n
  wrN b dst xs

/-- What the allocator does when asked: `none` is failure (NULL), `some f` success; the bytes it adds
    are arbitrary: byte `i` of the new part is `f i`. -/
abbrev Alloc := Option (Nat → Byte)

/-- ISO C `realloc(p, n)` where `p` points to the object `old` (`[]` for NULL): the content is kept up
    to the smaller size, the rest is arbitrary. `none` is NULL (the old object is then unchanged). A
    request for 0 bytes is taken to succeed with an empty object, as glibc does for a null `p`. -/
def realloc (a : Alloc) (old : List Byte) (n : Nat) : Option (List Byte) :=
  a.map fun f => old.take n ++ (List.range (n - old.length)).map f

/-- Reduction of a `size_t` result. -/
def szt (n : Nat) : Nat := n % 2^64
/-- Subtraction of `size_t` values. -/
def sztSub (a b : Nat) : Nat := (a + (2^64 - b % 2^64)) % 2^64

end Ulz
