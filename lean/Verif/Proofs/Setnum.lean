import Verif.Model.Setnum
import Verif.Props.Settings
import Verif.Props.Numbers
import Verif.Props.Parsetext
set_option linter.unusedSimpArgs false
namespace Ulz.Setnum
open Ulz.Settings Ulz.Settings.Spec Ulz.Fileparser.Spec Ulz.Stringptr.Spec
open Ulz.Stringptr (SP)
open Ulz.Wholefile.Spec (useful)
open Ulz.Numbers (strtoint)

/-- The number is what `strtoint` makes of the text of the setting. -/
theorem number_text {data : List Byte} (hne : data ≠ []) (hs : data.length + 17 < 2 ^ 64) {full : List (List Byte)} {last : List Byte}
    (h : Content data full last) (f : Nat → Byte) {answers : List (Option Nat)} (h1 : none ∉ answers) (h2 : data.length ≤ useful answers)
    {sec key : SP} {s k : List Byte} (hsec : Holds sec s) (hn : s.length + 2 < 2 ^ 64) (hkey : Holds key k) {i : Nat} {v : List Byte}
    (hv : Setting (linesOf full last) s k i v) :
    ∃ rest, number (some f) data answers sec key = (do pure (some (← strtoint (v ++ rest) v.length))) := by
  obtain ⟨L, r, e1, e2, e3⟩ := Props.settings_split data hne hs full last h f answers h1 h2 sec key s k hsec hn hkey
  obtain ⟨p, rfl, hp1, rest, hp2⟩ := (e3 v).2 ⟨i, hv⟩
  refine ⟨rest, ?_⟩
  unfold number
  rw [e1]
  simp only [ok_bind]
  rw [e2]
  simp only [ok_bind]
  rw [hp1, hp2]

theorem number_none {data : List Byte} (hne : data ≠ []) (hs : data.length + 17 < 2 ^ 64) {full : List (List Byte)} {last : List Byte}
    (h : Content data full last) (f : Nat → Byte) {answers : List (Option Nat)} (h1 : none ∉ answers) (h2 : data.length ≤ useful answers)
    {sec key : SP} {s k : List Byte} (hsec : Holds sec s) (hn : s.length + 2 < 2 ^ 64) (hkey : Holds key k)
    (hv : ∀ i v, ¬Setting (linesOf full last) s k i v) : number (some f) data answers sec key = .ok none := by
  obtain ⟨L, e, hL⟩ := loadSplit_spec hne hs h f h1 h2
  have hlen : (full ++ [last]).length < 2 ^ 64 := by
    have := Readers.content_length h
    simp only [List.length_append, List.length_singleton]
    omega
  obtain ⟨r, e', hr⟩ := setting_lines hL hlen hsec hn hkey
  unfold number
  rw [e]
  simp only [ok_bind]
  rw [e']
  rcases hr with ⟨i, v, p, rfl, hp, hS⟩ | ⟨rfl, hS⟩
  · exact absurd (Setting_lines.1 hS) (hv i v)
  · rfl

open Ulz.Parsetext.Spec Ulz.Numbers.Spec

theorem value_dec (n : Nat) : value (dec n) = n := by
  have hd : ∀ d < 10, (BitVec.ofNat 8 (48 + d) : Byte).toInt - 48 = d := by decide
  have : ∀ ds : List Nat, (∀ d ∈ ds, d < 10) → ∀ a : Nat,
      (ds.map fun d => (BitVec.ofNat 8 (48 + d) : Byte)).foldl (fun (a : Int) c => a * 10 + (c.toInt - 48)) (a : Int) =
        ((ds.foldl (fun acc d => acc * 10 + d) a : Nat) : Int) := by
    intro ds
    induction ds with
    | nil => intro _ a; rfl
    | cons d ds ih =>
      intro h a
      simp only [List.map_cons, List.foldl_cons]
      rw [hd d (h d (by simp)), ← ih (fun x hx => h x (by simp [hx]))]
      congr 1
  have h := this (digitsOf 10 n (by omega)) (Numbers.digitsOf_lt _) 0
  unfold value dec
  refine h.trans ?_
  have := Numbers.ofDigits_digitsOf 10 n (by omega)
  unfold ofDigits at this
  rw [this]

/-- A decimal number followed by a carriage return. -/
theorem strtoint_cr (n : Int) (hn : n.natAbs < 2 * 10 ^ 8) (rest : List Byte) :
    strtoint (decInt n ++ [ch '\r'] ++ rest) (decInt n ++ [ch '\r']).length = .ok (if n < 0 then 10 * n + 35 else 10 * n - 35) := by
  rw [Props.strtoint_text]
  have hl := (Props.dec_length_le (n := n.natAbs) (k := 8)).2 (by omega)
  have hv : value (dec n.natAbs ++ [ch '\r']) = 10 * n.natAbs - 35 := by
    rw [Parsetext.value_append, value_dec]
    have : (ch '\r').toInt = 13 := by decide
    omega
  have hb : (10 * (n.natAbs : Int) - 35).bmod (2 ^ 32) = 10 * n.natAbs - 35 := by
    apply Int.bmod_eq_of_le <;> omega
  unfold decInt
  by_cases hneg : n < 0
  · rw [if_pos hneg, if_pos hneg]
    have m : minus (45 :: dec n.natAbs ++ [ch '\r']) = true := rfl
    have b : body (45 :: dec n.natAbs ++ [ch '\r']) = dec n.natAbs ++ [ch '\r'] := rfl
    rw [m, b, hv, hb, if_neg, if_pos rfl]
    · congr 1; omega
    · rintro (h | h | h)
      · simp at h; omega
      · simp at h; omega
      · omega
  · rw [if_neg hneg, if_neg hneg]
    have m : minus (dec n.natAbs ++ [ch '\r']) = false := by
      obtain ⟨c, hc, hcm⟩ := Props.dec_head_ne_minus n.natAbs []
      cases hd : dec n.natAbs with
      | nil => rfl
      | cons x xs =>
        rw [hd] at hc
        have hx : x = c := Except.ok.inj hc
        subst hx
        simp [minus, hcm]
    have b : body (dec n.natAbs ++ [ch '\r']) = dec n.natAbs ++ [ch '\r'] := by unfold body; rw [m]; rfl
    rw [m, b, hv, hb, if_neg, if_neg (by decide)]
    · congr 1; omega
    · rintro (h | h | h)
      · simp at h; omega
      · simp at h; omega
      · exact absurd h.1 (by decide)

end Ulz.Setnum
