import Verif.Model.Kvmem
/-! Specification: a mathematical list of entries, and strings where the entries point to. -/
namespace Ulz.Kvmem.Spec

/-- The string `s` is in memory at `p`. -/
def Holds (m : Mem) (p : Nat) (s : List Byte) : Prop := ∀ i (h : i < s.length), m (p + i) = some s[i]

/-- The entry stands for the string `s` now. -/
def Text (m : Mem) (e : Entry) (s : List Byte) : Prop := e.size = s.length ∧ Holds m e.ptr s

/-- `i` is the first entry that stands for `s` now; `none` if there is no such entry. -/
def First (m : Mem) (es : List Entry) (s : List Byte) : Option Nat → Prop
  | none => ∀ e ∈ es, ¬Text m e s
  | some i => ∃ h : i < es.length, Text m es[i] s ∧ ∀ j (h : j < es.length), j < i → ¬Text m es[j] s

/-- A comparison that is a total preorder. -/
structure Total (c : Entry → Entry → Int) : Prop where
  refl : ∀ a, c a a = 0
  flip : ∀ a b, c a b < 0 ↔ c b a > 0
  trans : ∀ a b d, c a b ≤ 0 → c b d ≤ 0 → c a d ≤ 0

/-- What an action does to the list and the memory, and what it gives. -/
inductive Step : List Entry → Mem → Op → List Entry → Mem → Res → Prop
  | add {es m e a} : Step es m (.add e a) (es ++ [e]) m (.int 1)
  | addFail {es m e} : Step es m (.add e none) es m (.int 0)
  | set {es m pos e} : pos < es.length → Step es m (.set pos e) (es.set pos e) m (.int 1)
  | setOut {es m pos e} : es.length ≤ pos → Step es m (.set pos e) es m (.int 0)
  | insert {es m pos e a} : Step es m (.insert pos e a) (es.take pos ++ e :: es.drop pos) m (.int 1)
  | insertFail {es m pos e} : Step es m (.insert pos e none) es m (.int 0)
  | sorted {es m e cmp a p} : p ≤ es.length →
      (Total (cmp m) → es.Pairwise (fun x y => cmp m x y ≤ 0) → (es.take p ++ e :: es.drop p).Pairwise (fun x y => cmp m x y ≤ 0)) →
      Step es m (.sorted e cmp a) (es.take p ++ e :: es.drop p) m (.index (some p))
  | sortedFail {es m e cmp} : Step es m (.sorted e cmp none) es m (.index none)
  | delete {es m i} : Step es m (.delete i) (es.eraseIdx i) m .unit
  | get {es m i} : Step es m (.get i) es m (.entry es[i]?)
  | size {es m} : Step es m .size es m (.int es.length)
  | find {es m p s r} : Holds m p s → First m es s r → Step es m (.find p s.length) es m (.index r)
  | kvfind {es m p s v i h} : Holds m p s → First m es s (some i) → Step es m (.kvfind p s.length v) es m (.found 1 (es[i]'h).value)
  | kvnone {es m p s v} : Holds m p s → First m es s none → Step es m (.kvfind p s.length v) es m (.found 0 v)
  | poke {es m p b} : Step es m (.poke p b) es (fun q => if q = p then b else m q) .unit

/-- A history. -/
inductive Steps : List Entry → Mem → List Op → List Entry → Mem → List Res → Prop
  | nil {es m} : Steps es m [] es m []
  | cons {es m op es' m' r ops es'' m'' rs} : Step es m op es' m' r → Steps es' m' ops es'' m'' rs → Steps es m (op :: ops) es'' m'' (r :: rs)

/-- The fields fit into eight bytes; a `stringptr` has no value. -/
def Fits (kv : Bool) (e : Entry) : Prop := e.ptr < 2^64 ∧ e.size < 2^64 ∧ e.value < 2^64 ∧ (kv = false → e.value = 0)

/-- What the program must see to: insertions are not beyond the end, and during a search the strings of all entries can be read. -/
def Ok (kv : Bool) (es : List Entry) (m : Mem) : Op → Prop
  | .add e _ => Fits kv e
  | .set _ e => Fits kv e
  | .insert pos e _ => Fits kv e ∧ pos ≤ es.length
  | .sorted e _ _ => Fits kv e
  | .find p n => (∃ s, Holds m p s ∧ s.length = n) ∧ ∀ e ∈ es, ∃ t, Text m e t
  | .kvfind p n _ => kv = true ∧ (∃ s, Holds m p s ∧ s.length = n) ∧ ∀ e ∈ es, ∃ t, Text m e t
  | _ => True

/-- It sees to it at every step, whatever the allocator does. -/
def Safe (kv : Bool) : List Entry → Mem → List Op → Prop
  | _, _, [] => True
  | es, m, op :: ops => Ok kv es m op ∧ ∀ es' m' r, Step es m op es' m' r → Safe kv es' m' ops

end Ulz.Kvmem.Spec
