import Verif.Spec.Stdin
import Verif.Proofs.Stringptr
import Verif.Proofs.Mem
/-! Lemmas about reading standard input line by line. -/
namespace Ulz.Stdin
open Spec
open Ulz.Stringptr (SP)

theorem takeLine_spec : ∀ (k : Nat) (inp p r : List Byte), takeLine k inp = (p, r) →
    inp = p ++ r ∧ p.length ≤ k ∧ ch '\n' ∉ p.dropLast ∧ (p.length < k → p.getLast? = some (ch '\n') ∨ r = []) ∧ (p = [] → k = 0 ∨ inp = [])
  | 0, inp, p, r, h => by
    simp only [takeLine, Prod.mk.injEq] at h
    obtain ⟨rfl, rfl⟩ := h
    simp
  | k + 1, [], p, r, h => by
    simp only [takeLine, Prod.mk.injEq] at h
    obtain ⟨rfl, rfl⟩ := h
    simp
  | k + 1, c :: inp, p, r, h => by
    simp only [takeLine] at h
    split at h
    · simp only [Prod.mk.injEq] at h
      obtain ⟨rfl, rfl⟩ := h
      rename_i hc
      simp [hc]
    · rename_i hc
      generalize e : takeLine k inp = q at h
      obtain ⟨p', r'⟩ := q
      simp only [Prod.mk.injEq] at h
      obtain ⟨rfl, rfl⟩ := h
      obtain ⟨h1, h2, h3, h4, h5⟩ := takeLine_spec k inp p' r' e
      refine ⟨by rw [h1]; rfl, by simpa using h2, ?_, ?_, by simp⟩
      · cases p' with
        | nil => simp
        | cons d p' =>
          rw [List.dropLast_cons_of_ne_nil (by simp)]
          simp only [List.mem_cons, not_or]
          exact ⟨fun e => hc e.symm, h3⟩
      · intro hl
        rw [List.length_cons] at hl
        cases p' with
        | nil =>
          rcases h5 rfl with h5 | h5
          · simp at hl; omega
          · rw [h5] at h1; exact .inr (by simpa using h1.symm)
        | cons d p' =>
          rw [List.getLast?_cons_cons]
          exact h4 (by omega)

theorem takeLine_piece {k : Nat} {inp : List Byte} (hk : 0 < k) (hi : inp ≠ []) :
    ∃ p r, takeLine k inp = (p, r) ∧ inp = p ++ r ∧ Piece k p r := by
  generalize e : takeLine k inp = q
  obtain ⟨p, r⟩ := q
  obtain ⟨h1, h2, h3, h4, h5⟩ := takeLine_spec k inp p r e
  exact ⟨p, r, rfl, h1, fun e => by rcases h5 e with h | h; (· omega); (· exact hi h), h2, h3, h4⟩

theorem str_split (p junk : List Byte) : ∃ junk', p ++ 0 :: junk = str p ++ 0 :: junk' ∧ (0 : Byte) ∉ str p := by
  induction p with
  | nil => exact ⟨junk, rfl, by simp [str]⟩
  | cons c p ih =>
    obtain ⟨j, e, h⟩ := ih
    by_cases hc : c = 0
    · refine ⟨p ++ 0 :: junk, ?_, ?_⟩
      · simp [str, hc]
      · simp [str, hc]
    · refine ⟨j, ?_, ?_⟩
      · have : str (c :: p) = c :: str p := by unfold str; rw [List.takeWhile_cons_of_pos (by simpa using hc)]
        rw [this, List.cons_append, List.cons_append, e]
      · have : str (c :: p) = c :: str p := by unfold str; rw [List.takeWhile_cons_of_pos (by simpa using hc)]
        rw [this]
        simp only [List.mem_cons, not_or]
        exact ⟨fun e => hc e.symm, h⟩

/-- What the caller sees of a piece. -/
def seen (chomp : Bool) (p : List Byte) : List Byte := if chomp then (str p).dropLast else str p

theorem read_any (chomp : Bool) (p junk : List Byte) : ∃ b n, Stringptr.read_stdin_line (some (p ++ 0 :: junk)) chomp = .ok ⟨b, n⟩ ∧
    b.length = (p ++ 0 :: junk).length ∧ b.take n = seen chomp p := by
  obtain ⟨j, e, h0⟩ := str_split p junk
  rw [e]
  generalize hs : str p = s at *
  unfold Stringptr.read_stdin_line Stringptr.fromchar
  simp only
  rw [Hex.strlen_cstr _ _ h0]
  simp only [pure_eq_ok, ok_bind]
  cases chomp with
  | false =>
    refine ⟨s ++ 0 :: j, s.length, rfl, rfl, ?_⟩
    simp [seen, hs]
  | true =>
    simp only [if_true, seen, hs]
    unfold Stringptr.shiftleft
    simp only
    by_cases h1 : s.length ≥ 1
    · rw [if_pos h1, wr_ok (by simp; omega)]
      refine ⟨_, _, rfl, by rw [List.length_set], ?_⟩
      rw [List.take_set_of_le (Nat.le_refl _), List.take_append_of_le_length (by omega), List.dropLast_eq_take]
    · rw [if_neg h1]
      have : s = [] := List.eq_nil_of_length_eq_zero (by omega)
      subst this
      exact ⟨_, 0, rfl, rfl, rfl⟩

theorem toInt_small {n : Nat} (h : n < 2^31) : (BitVec.ofNat 32 n).toInt = n := by
  rw [BitVec.toInt_eq_toNat_bmod, BitVec.toNat_ofNat, Int.bmod_eq_of_le] <;> omega

theorem readLine_piece {bs : Nat} (h2 : 2 ≤ bs) (hi : bs < 2^31) (chomp : Bool) {buf : List Byte} (hb : bs ≤ buf.length) {inp : List Byte}
    (hne : inp ≠ []) : ∃ p r b n, inp = p ++ r ∧ Piece (bs - 1) p r ∧ readLine bs chomp buf inp = .ok (⟨b, n⟩, b, r) ∧
      b.length = buf.length ∧ b.take n = seen chomp p := by
  obtain ⟨p, r, e, e1, hp⟩ := takeLine_piece (k := bs - 1) (by omega) hne
  have hw : wrN buf 0 (p ++ [0]) = .ok (p ++ 0 :: buf.drop (p.length + 1)) := by
    unfold wrN
    have hl := hp.2.1
    rw [if_pos (by rw [List.length_append, List.length_singleton]; omega)]
    unfold put
    simp
  obtain ⟨b, n, hr, hbl, ht⟩ := read_any chomp p (buf.drop (p.length + 1))
  refine ⟨p, r, b, n, e1, hp, ?_, ?_, ht⟩
  · unfold readLine fgets
    rw [toInt_small hi, if_neg (by omega), if_neg (by omega), show ((bs : Int).toNat - 1) = bs - 1 by omega, e]
    obtain ⟨c, p', rfl⟩ := List.exists_cons_of_ne_nil hp.1
    simp only
    rw [hw]
    simp only [ok_bindE, pure_eq_ok, if_true]
    rw [hr]; rfl
  · rw [hbl]
    have hl := hp.2.1
    simp; omega

theorem readLine_eof {bs : Nat} (h2 : 2 ≤ bs) (hi : bs < 2^31) (chomp : Bool) (buf : List Byte) :
    readLine bs chomp buf [] = .ok (⟨[], 0⟩, buf, []) := by
  unfold readLine fgets
  rw [toInt_small hi, if_neg (by omega), if_neg (by omega), show ((bs : Int).toNat - 1) = (bs - 2) + 1 by omega]
  rfl

theorem readAll_spec {bs : Nat} (h2 : 2 ≤ bs) (hi : bs < 2^31) (chomp : Bool) : ∀ (fuel : Nat) (buf inp : List Byte),
    bs ≤ buf.length → inp.length < fuel → ∃ ps, Pieces (bs - 1) inp ps ∧ readAll bs chomp fuel buf inp = .ok (ps.map (seen chomp))
  | 0, _, _, _, h => by omega
  | fuel + 1, buf, inp, hb, hf => by
    by_cases hne : inp = []
    · subst hne
      refine ⟨[], .nil, ?_⟩
      rw [readAll, readLine_eof h2 hi]
      rfl
    · obtain ⟨p, r, b, n, rfl, hp, e, hl, ht⟩ := readLine_piece h2 hi chomp hb hne
      have hpl : 0 < p.length := List.length_pos_iff.2 hp.1
      rw [List.length_append] at hf
      obtain ⟨ps, hps, e'⟩ := readAll_spec h2 hi chomp fuel b r (by omega) (by omega)
      refine ⟨p :: ps, .cons hp hps, ?_⟩
      rw [readAll, e]
      simp only [ok_bindE]
      rw [if_neg (fun e : b = [] => by rw [e] at hl; simp at hl; omega), e']
      simp only [ok_bindE, pure_eq_ok, ht]
      rfl

theorem piece_unique {k : Nat} {p r p' r' : List Byte} (h : Piece k p r) (h' : Piece k p' r') (e : p ++ r = p' ++ r') : p = p' ∧ r = r' := by
  have key : ∀ {p r p' r' : List Byte}, Piece k p r → Piece k p' r' → p ++ r = p' ++ r' → ¬ p.length < p'.length := by
    intro p r p' r' h h' e hl
    have hlen := congrArg List.length e
    rw [List.length_append, List.length_append] at hlen
    rcases h.2.2.2 (Nat.lt_of_lt_of_le hl h'.2.1) with h1 | h1
    · have hpos : 0 < p.length := List.length_pos_iff.2 h.1
      refine h'.2.2.1 ?_
      have h3 : p'.dropLast[p.length - 1]? = some (ch '\n') := by
        rw [List.getElem?_dropLast, if_pos (by omega)]
        rw [List.getLast?_eq_getElem?] at h1
        have h4 : (p ++ r)[p.length - 1]? = (p' ++ r')[p.length - 1]? := by rw [e]
        rw [List.getElem?_append_left (by omega), List.getElem?_append_left (by omega), h1] at h4
        exact h4.symm
      exact List.mem_of_getElem? h3
    · rw [h1] at hlen; simp at hlen; omega
  have hl : p.length = p'.length := by
    have h1 := key h h' e
    have h2 := key h' h e.symm
    omega
  exact List.append_inj e hl

theorem pieces_unique {k : Nat} {t : List Byte} {ps ps' : List (List Byte)} (h : Pieces k t ps) (h' : Pieces k t ps') : ps = ps' := by
  induction h generalizing ps' with
  | nil =>
    generalize e : ([] : List Byte) = t at h'
    cases h' with
    | nil => rfl
    | cons hp _ =>
      have := hp.1
      simp at e
      exact absurd e.1 this
  | @cons p rest ps hp _ ih =>
    generalize e : p ++ rest = t at h'
    cases h' with
    | nil =>
      have := hp.1
      simp at e
      exact absurd e.1 this
    | cons hp' hps' =>
      obtain ⟨rfl, rfl⟩ := piece_unique hp hp' e
      rw [ih hps']

theorem pieces_flatten {k : Nat} {t : List Byte} {ps : List (List Byte)} (h : Pieces k t ps) : ps.flatten = t := by
  induction h with
  | nil => rfl
  | cons _ _ ih => rw [List.flatten_cons, ih]

theorem str_id {p : List Byte} (h : (0 : Byte) ∉ p) : str p = p := by
  induction p with
  | nil => rfl
  | cons c p ih =>
    simp only [List.mem_cons, not_or] at h
    have e := ih h.2
    unfold str at *
    rw [List.takeWhile_cons_of_pos (by simpa using fun e => h.1 e.symm), e]

/-- The lines put together again are the text exactly if every piece ends with a newline. -/
theorem unlines_iff {k : Nat} {t : List Byte} {ps : List (List Byte)} (h : Pieces k t ps) :
    unlines (ps.map List.dropLast) = t ↔ ∀ p ∈ ps, p.getLast? = some (ch '\n') := by
  have hsnoc : ∀ p : List Byte, p ≠ [] → (p.dropLast ++ [ch '\n'] = p ↔ p.getLast? = some (ch '\n')) := by
    intro p hp
    rw [List.getLast?_eq_some_getLast hp]
    conv => lhs; rhs; rw [← List.dropLast_concat_getLast hp]
    simp
    exact eq_comm
  have hlen : ∀ p : List Byte, p ≠ [] → (p.dropLast ++ [ch '\n']).length = p.length := by
    intro p hp
    have := List.length_pos_iff.2 hp
    simp; omega
  induction h with
  | nil => simp [unlines]
  | @cons p rest ps hp _ ih =>
    have e : unlines ((p :: ps).map List.dropLast) = (p.dropLast ++ [ch '\n']) ++ unlines (ps.map List.dropLast) := by
      simp [unlines]
    rw [e]
    constructor
    · intro e2
      obtain ⟨e3, e4⟩ := List.append_inj e2 (hlen p hp.1)
      intro q hq
      rcases List.mem_cons.1 hq with rfl | hq
      · exact (hsnoc _ hp.1).1 e3
      · exact ih.1 e4 q hq
    · intro hall
      rw [(hsnoc p hp.1).2 (hall p (by simp)), ih.2 (fun q hq => hall q (by simp [hq]))]

end Ulz.Stdin
