import Verif.Proofs.Setnum
/-! # C241: numbers kept in a settings file -/
namespace Ulz.Props
open Ulz.Settings Ulz.Settings.Spec Ulz.Fileparser.Spec Ulz.Stringptr.Spec Ulz.Setnum
open Ulz.Stringptr (SP)
open Ulz.Wholefile.Spec (useful)
open Ulz.Numbers.Spec (decInt)

/-- **C241** A setting whose text is the decimal numeral of an `int` is read as this number, wherever it stands in the file;
    only for the smallest `int` the behaviour is undefined. -/
theorem setnum_read (data : List Byte) (hne : data ≠ []) (hs : data.length + 17 < 2 ^ 64) (full : List (List Byte)) (last : List Byte)
    (h : Content data full last) (f : Nat → Byte) (answers : List (Option Nat)) (h1 : none ∉ answers) (h2 : data.length ≤ useful answers)
    (sec key : SP) (s k : List Byte) (hsec : Holds sec s) (hn : s.length + 2 < 2 ^ 64) (hkey : Holds key k) (i : Nat) (n : Int)
    (hlo : -2 ^ 31 ≤ n) (hhi : n < 2 ^ 31) (hv : Setting (linesOf full last) s k i (decInt n)) :
    number (some f) data answers sec key = if n = -2 ^ 31 then .error .overflow else .ok (some n) := by
  obtain ⟨rest, e⟩ := number_text hne hs h f h1 h2 hsec hn hkey hv
  have hb : (BitVec.ofInt 32 n).toInt = n := by
    rw [BitVec.toInt_ofInt]
    apply Int.bmod_eq_of_le <;> omega
  have := strtoint_roundtrip (BitVec.ofInt 32 n) rest
  rw [hb] at this
  rw [e, this]
  split <;> rfl

/-- **C241** In a file with carriage returns (DOS) the number is another one for every number: ten times the number, less 35 (for
    negative numbers: plus 35). -/
theorem setnum_dos (data : List Byte) (hne : data ≠ []) (hs : data.length + 17 < 2 ^ 64) (full : List (List Byte)) (last : List Byte)
    (h : Content data full last) (f : Nat → Byte) (answers : List (Option Nat)) (h1 : none ∉ answers) (h2 : data.length ≤ useful answers)
    (sec key : SP) (s k : List Byte) (hsec : Holds sec s) (hn : s.length + 2 < 2 ^ 64) (hkey : Holds key k) (i : Nat) (n : Int)
    (hr : -2 * 10 ^ 8 < n ∧ n < 2 * 10 ^ 8) (hv : Setting (linesOf full last) s k i (decInt n ++ [ch '\r'])) :
    ∃ m, number (some f) data answers sec key = .ok (some m) ∧ (m = if n < 0 then 10 * n + 35 else 10 * n - 35) ∧ m ≠ n := by
  obtain ⟨rest, e⟩ := number_text hne hs h f h1 h2 hsec hn hkey hv
  refine ⟨_, ?_, rfl, ?_⟩
  · rw [e, strtoint_cr n (by omega) rest]
    rfl
  · split <;> omega

/-- **C241** Without such a setting no number is reported. -/
theorem setnum_missing (data : List Byte) (hne : data ≠ []) (hs : data.length + 17 < 2 ^ 64) (full : List (List Byte)) (last : List Byte)
    (h : Content data full last) (f : Nat → Byte) (answers : List (Option Nat)) (h1 : none ∉ answers) (h2 : data.length ≤ useful answers)
    (sec key : SP) (s k : List Byte) (hsec : Holds sec s) (hn : s.length + 2 < 2 ^ 64) (hkey : Holds key k)
    (hv : ∀ i v, ¬Setting (linesOf full last) s k i v) : number (some f) data answers sec key = .ok none :=
  number_none hne hs h f h1 h2 hsec hn hkey hv

/-- A file with the section `net` and one setting, for the examples below. -/
theorem setnum_demo (t : List Byte) (ht : ch '\n' ∉ t) : Content (bytes! "[net]\nport=" ++ t ++ [10]) [bytes! "[net]", bytes! "port=" ++ t] [] := by
  refine ⟨?_, ?_, by simp⟩
  · have : bytes! "[net]\nport=" = bytes! "[net]" ++ ch '\n' :: bytes! "port=" := by decide
    rw [this]
    have h10 : (10 : Byte) = ch '\n' := by decide
    simp [h10]
  · intro l hl
    rcases List.mem_cons.1 hl with rfl | hl
    · decide
    · rw [List.mem_singleton] at hl
      subst hl
      intro hm
      rcases List.mem_append.1 hm with hm | hm
      · exact absurd hm (by decide)
      · exact ht hm

theorem setnum_demo_setting (t : List Byte) (hb : ∀ line, line = bytes! "port=" ++ t → ¬Iniparser.Spec.Bracket line) :
    Setting (linesOf [bytes! "[net]", bytes! "port=" ++ t] []) (bytes! "net") (bytes! "port") 1 t := by
  refine ⟨0, by decide, ⟨bytes! "[net]", rfl, by simp [Iniparser.Spec.Header]; decide⟩, by intro j hj; omega, ?_, rfl, by intro j h1 h2; omega⟩
  intro j h1 h2 line hl
  have : j = 1 := by omega
  subst this
  exact hb line (Option.some.inj hl).symm

example : number (some fun _ => 0) (bytes! "[net]\nport=8080\n") (List.replicate 20 (some 1)) ⟨bytes! "net", 3⟩ ⟨bytes! "port", 4⟩ = .ok (some 8080) := by
  have hd : decInt 8080 = bytes! "8080" := by
    rw [decInt, if_neg (by decide)]
    simp [Numbers.Spec.dec, Numbers.Spec.digitsOf]
  have := setnum_read (bytes! "[net]\nport=8080\n") (by decide) (by decide) _ _ (setnum_demo (bytes! "8080") (by decide)) (fun _ => 0)
    (List.replicate 20 (some 1)) (by decide) (by decide) ⟨bytes! "net", 3⟩ ⟨bytes! "port", 4⟩ (bytes! "net") (bytes! "port") ⟨rfl, List.prefix_refl _⟩ (by decide)
    ⟨rfl, List.prefix_refl _⟩ 1 8080 (by decide) (by decide)
    (by rw [hd]; exact setnum_demo_setting _ (by rintro line rfl; unfold Iniparser.Spec.Bracket; decide))
  rw [if_neg (by decide)] at this
  exact this

example : ∃ m, number (some fun _ => 0) (bytes! "[net]\nport=80\r\n") (List.replicate 20 (some 1)) ⟨bytes! "net", 3⟩ ⟨bytes! "port", 4⟩ = .ok (some m) ∧ m = 765 := by
  have hd : decInt 80 = bytes! "80" := by
    rw [decInt, if_neg (by decide)]
    simp [Numbers.Spec.dec, Numbers.Spec.digitsOf]
  obtain ⟨m, e, hm, -⟩ := setnum_dos (bytes! "[net]\nport=80\r\n") (by decide) (by decide) _ _ (setnum_demo (bytes! "80\r") (by decide)) (fun _ => 0)
    (List.replicate 20 (some 1)) (by decide) (by decide) ⟨bytes! "net", 3⟩ ⟨bytes! "port", 4⟩ (bytes! "net") (bytes! "port") ⟨rfl, List.prefix_refl _⟩ (by decide)
    ⟨rfl, List.prefix_refl _⟩ 1 80 (by decide)
    (by rw [hd]; exact setnum_demo_setting (bytes! "80\r") (by rintro line rfl; unfold Iniparser.Spec.Bracket; decide))
  exact ⟨m, e, by rw [hm, if_neg (by decide)]; rfl⟩

example : number (some fun _ => 0) (bytes! "\n") (List.replicate 20 (some 1)) ⟨bytes! "net", 3⟩ ⟨bytes! "port", 4⟩ = .ok none := by
  refine setnum_missing (bytes! "\n") (by decide) (by decide) [[]] [] ⟨by decide, by simp, by simp⟩ (fun _ => 0)
    (List.replicate 20 (some 1)) (by decide) (by decide) ⟨bytes! "net", 3⟩ ⟨bytes! "port", 4⟩ (bytes! "net") (bytes! "port") ⟨rfl, List.prefix_refl _⟩ (by decide)
    ⟨rfl, List.prefix_refl _⟩ ?_
  rintro i v ⟨h, hh, -, -, -, h3, -⟩
  have := (List.getElem?_eq_some_iff.1 h3).1
  simp [linesOf] at this
  omega

end Ulz.Props
