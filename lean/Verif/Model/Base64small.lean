import Verif.Model.Base64
/-! Use of `base64enc_str` with a buffer that is too small. -/
namespace Ulz.Base64

/-- A caller of src/strlib/base64enc_str.c:5-33 that has only a small buffer:
    `for(;;) { r = base64enc_str(buf, src, len); fputs(buf, out); if(r) break; src += (len - 1) / 4 * 3; }`.
    Result: what was put out. `src` is the rest of the source object. `fputs` needs a terminated buffer. -/
def encThrough : (fuel : Nat) → (buf src : List Byte) → C (List Byte)
  | 0, _, _ => .error .hang
  | fuel + 1, buf, src => do
    let (buf, r) ← base64enc_str buf src buf.length
    if (0 : Byte) ∉ buf then throw .oobRead
    let t := buf.takeWhile (· ≠ 0)
    if r = 1 then pure t
    else do
      let u ← encThrough fuel buf (src.drop ((buf.length - 1) / 4 * 3))
      pure (t ++ u)

end Ulz.Base64
