import Verif.Proofs.Rc4
import Verif.Props.Rc4
import Mathlib.Dynamics.PeriodicPts.Defs
import Mathlib.Dynamics.PeriodicPts.Lemmas
import Mathlib.Data.Fintype.EquivFin
import Mathlib.Data.Finite.Prod
/-! Lemmas about the key stream of RC4. -/
namespace Ulz.Rc4
open Ulz.Rc4.Spec

/-- Byte `n` of the key stream from a state. -/
def ksAt (S : Byte → Byte) (i j : Byte) : Nat → Byte
  | 0 => swap S (i + 1) (j + S (i + 1)) (swap S (i + 1) (j + S (i + 1)) (i + 1) + swap S (i + 1) (j + S (i + 1)) (j + S (i + 1)))
  | n + 1 => ksAt (swap S (i + 1) (j + S (i + 1))) (i + 1) (j + S (i + 1)) n

theorem prga_get : ∀ {m : Nat} {n : Nat} (S : Byte → Byte) (i j : Byte), n < m → (prga m S i j)[n]? = some (ksAt S i j n)
  | 0, _, _, _, _, h => by omega
  | m + 1, 0, S, i, j, h => rfl
  | m + 1, n + 1, S, i, j, h => by
    simp only [prga, List.getElem?_cons_succ, ksAt]
    exact prga_get _ _ _ (by omega)

abbrev State := (Byte → Byte) × Byte × Byte

/-- The generator's change of state. -/
def nextSt (s : State) : State := (swap s.1 (s.2.1 + 1) (s.2.2 + s.1 (s.2.1 + 1)), s.2.1 + 1, s.2.2 + s.1 (s.2.1 + 1))

theorem swap_swap (S : Byte → Byte) (i j : Byte) : swap (swap S i j) i j = S := by
  funext k
  unfold swap
  by_cases h1 : k = i
  · subst h1
    by_cases h2 : j = k
    · subst h2; simp
    · simp [h2]
  · by_cases h2 : k = j
    · subst h2; simp [h1]
    · simp [h1, h2]

theorem nextSt_injective : Function.Injective nextSt := by
  rintro ⟨S, i, j⟩ ⟨S', i', j'⟩ h
  simp only [nextSt, Prod.mk.injEq] at h
  obtain ⟨h1, h2, h3⟩ := h
  have hi : i = i' := by
    have := congrArg (· - 1) h2
    simpa using this
  subst hi
  rw [h3] at h1
  have hS : S = S' := by
    have := congrArg (fun T => swap T (i + 1) (j' + S' (i + 1))) h1
    simpa only [swap_swap] using this
  subst hS
  have hj : j = j' := by
    have := congrArg (· - S (i + 1)) h3
    simpa using this
  subst hj
  rfl

instance : Finite Byte := Finite.of_injective BitVec.toFin (fun a b h => BitVec.eq_of_toFin_eq h)

theorem periodic (s : State) : ∃ P > 0, nextSt^[P] s = s := by
  have h : s ∈ Function.periodicPts nextSt := nextSt_injective.mem_periodicPts s
  exact Function.mem_periodicPts.1 h

theorem ksAt_add : ∀ (P n : Nat) (s : State), ksAt s.1 s.2.1 s.2.2 (n + P) = ksAt (nextSt^[P] s).1 (nextSt^[P] s).2.1 (nextSt^[P] s).2.2 n
  | 0, _, _ => rfl
  | P + 1, n, s => by
    rw [Function.iterate_succ_apply, ← ksAt_add P n (nextSt s)]
    rfl

/-- Byte `n` of the key stream of a key. -/
def ksKey (key : List Byte) (hk : 0 < key.length) (n : Nat) : Byte := ksAt (ksa key hk 256).1 0 0 n

theorem keystream_get {key : List Byte} (hk : 0 < key.length) {m n : Nat} (h : n < m) : (keystream key hk m)[n]? = some (ksKey key hk n) :=
  prga_get _ _ _ h

theorem keystream_length {key : List Byte} (hk : 0 < key.length) (m : Nat) : (keystream key hk m).length = m := prga_length _ _ _ _

/-- The output at one place. -/
theorem out_get {key : List Byte} (hk : 0 < key.length) (d src : List Byte) {i : Nat} (h : i < src.length) :
    (put d 0 (List.zipWith (· ^^^ ·) src (keystream key hk src.length)))[i]? = some (src[i] ^^^ ksKey key hk i) := by
  have hl : (List.zipWith (· ^^^ ·) src (keystream key hk src.length)).length = src.length := by simp [keystream_length]
  rw [put_zero, List.getElem?_append_left (by omega), List.getElem?_zipWith, keystream_get hk h, List.getElem?_eq_getElem h]

theorem swap_left (S : Byte → Byte) (i j : Byte) : swap S i j i = S j := by simp [swap]

theorem swap_right (S : Byte → Byte) (i j : Byte) : swap S i j j = S i := by
  unfold swap
  by_cases h : j = i
  · subst h; simp
  · simp [h]

theorem swap_other (S : Byte → Byte) {i j k : Byte} (h1 : k ≠ i) (h2 : k ≠ j) : swap S i j k = S k := by simp [swap, h1, h2]

theorem second_zero (S : Byte → Byte) (h2 : S 2 = 0) (h1 : S 1 ≠ 2) : ksAt S 0 0 1 = 0 := by
  have e : ksAt S 0 0 1 = ksAt (swap S 1 (S 1)) 1 (S 1) 0 := by
    show ksAt (swap S (0 + 1) (0 + S (0 + 1))) (0 + 1) (0 + S (0 + 1)) 0 = _
    have e1 : (0 : Byte) + 1 = 1 := rfl
    rw [e1, show (0 : Byte) + S 1 = S 1 from BitVec.zero_add _]
  rw [e]
  have hT : swap S 1 (S 1) 2 = 0 := by rw [swap_other S (by decide) (fun h => h1 h.symm)]; exact h2
  show swap _ (1 + 1) (S 1 + swap S 1 (S 1) (1 + 1)) _ = 0
  have e2 : (1 : Byte) + 1 = 2 := rfl
  rw [e2, hT, show S 1 + (0 : Byte) = S 1 from BitVec.add_zero _]
  rw [swap_left, swap_right, swap_right, hT, show S 1 + (0 : Byte) = S 1 from BitVec.add_zero _, swap_right, hT]

end Ulz.Rc4
