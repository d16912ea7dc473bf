import Verif.Spec.Codedup
import Verif.Proofs.Base
import Verif.Proofs.Hex
/-! Lemmas about codedup. -/
namespace Ulz.Codedup
open Spec

abbrev Ls := List (BitVec 32 × List Byte)

/-- The texts. -/
def texts (ls : Ls) : List (List Byte) := ls.map Prod.snd

/-- Equal texts have equal hashes. -/
def Hashed (ls : Ls) : Prop := ∃ H : List Byte → BitVec 32, ∀ x ∈ ls, x.1 = H x.2

theorem at_spec {ls : Ls} {i : Nat} (hi : i < ls.length) : at' ls i = .ok ls[i] := by
  unfold at'; rw [List.getElem?_eq_getElem hi]; rfl

theorem line_equal_spec {ls : Ls} (hh : Hashed ls) {i j : Nat} (hi : i < ls.length) (hj : j < ls.length) :
    line_equal ls i j = .ok (decide ((texts ls)[i]? = (texts ls)[j]?)) := by
  obtain ⟨H, hH⟩ := hh
  unfold line_equal
  rw [at_spec hi, at_spec hj]
  simp only [ok_bind, pure_eq_ok]
  congr 1
  have h1 := hH _ (List.getElem_mem hi)
  have h2 := hH _ (List.getElem_mem hj)
  unfold texts
  rw [List.getElem?_map, List.getElem?_map, List.getElem?_eq_getElem hi, List.getElem?_eq_getElem hj]
  simp only [Option.map_some, Option.some.injEq]
  rw [Bool.eq_iff_iff]
  simp only [Bool.and_eq_true, beq_iff_eq, decide_eq_true_eq]
  constructor
  · rintro ⟨_, h⟩; exact h
  · intro h; rw [h1, h2, h]; exact ⟨rfl, rfl⟩

theorem Spec.Same.succ {L : List (List Byte)} {i j h : Nat} (hs : Same L i j h) (he : L[i + h]? = L[j + h]?) :
    Same L i j (h + 1) := by
  intro k hk
  rcases Nat.lt_or_eq_of_le (Nat.le_of_lt_succ hk) with h1 | h1
  · exact hs k h1
  · rw [h1]; exact he

theorem matchLoop_spec {ls : Ls} (hh : Hashed ls) {i j : Nat} (hij : i ≤ j) : ∀ n h, j + h + n ≤ ls.length →
    Same (texts ls) i j h → ∃ h', matchLoop ls i j n h = .ok h' ∧ Same (texts ls) i j h' ∧ h' ≤ h + n ∧ h ≤ h' ∧
      (h' < h + n → ¬ Same (texts ls) i j (h + n))
  | 0, h, _, hs => ⟨h, rfl, hs, by omega, by omega, by omega⟩
  | n + 1, h, hb, hs => by
    unfold matchLoop
    rw [line_equal_spec hh (by omega) (by omega)]
    simp only [ok_bind]
    by_cases he : (texts ls)[i + h]? = (texts ls)[j + h]?
    · rw [if_pos (by simpa using he)]
      obtain ⟨h', r1, r2, r3, r4, r5⟩ := matchLoop_spec hh hij n (h + 1) (by omega) (hs.succ he)
      refine ⟨h', r1, r2, by omega, by omega, ?_⟩
      rw [show h + (n + 1) = h + 1 + n by omega]
      exact r5
    · rw [if_neg (by simpa using he)]
      refine ⟨h, rfl, hs, by omega, by omega, fun _ hsame => he (hsame h (by omega))⟩

theorem extendLoop_spec {ls : Ls} (hh : Hashed ls) {i j : Nat} : ∀ fuel h, ls.length - (j + h) < fuel →
    i + h ≤ j → j + h ≤ ls.length → Same (texts ls) i j h →
    ∃ h', extendLoop ls i j fuel h = .ok h' ∧ h ≤ h' ∧ Maximal (texts ls) i j h'
  | 0, h, hf, _, _, _ => by omega
  | fuel + 1, h, hf, h1, h2, hs => by
    have hl : (texts ls).length = ls.length := by simp [texts]
    unfold extendLoop
    by_cases hc : j + h < ls.length ∧ i + h < j
    · rw [if_pos hc, line_equal_spec hh (by omega) (by omega)]
      simp only [ok_bind]
      by_cases he : (texts ls)[i + h]? = (texts ls)[j + h]?
      · rw [if_pos (by simpa using he)]
        obtain ⟨h', r1, r2, r3⟩ := extendLoop_spec hh fuel (h + 1) (by omega) (by omega) (by omega) (hs.succ he)
        exact ⟨h', r1, by omega, r3⟩
      · rw [if_neg (by simpa using he)]
        refine ⟨h, rfl, by omega, ⟨h1, by omega, hs⟩, fun hd => he (hd.2.2 h (by omega))⟩
    · rw [if_neg hc]
      refine ⟨h, rfl, by omega, ⟨h1, by omega, hs⟩, fun hd => hc ?_⟩
      have := hd.1; have := hd.2.1
      omega

/-- Recording the duplicates found for line `i`. -/
def recordAll (m : Map) (i : Nat) (E : List Item) : Map := E.foldl (fun m x => record m i x) m

/-- The longest. -/
def maxOf (E : List Item) (l : Nat) : Nat := longestOf E l

theorem jLoop_spec {ls : Ls} (hh : Hashed ls) (bl i : Nat) : ∀ fuel j m c lg, i + bl ≤ j → ls.length - j < fuel →
    ∃ E : List Item, jLoop ls bl i fuel j m c lg = .ok (recordAll m i E, c + E.length, longestOf E lg) ∧
      (∀ x ∈ E, j ≤ x.lineno ∧ x.lineno + bl < ls.length ∧ bl ≤ x.dupes ∧ Maximal (texts ls) i x.lineno x.dupes) ∧
      E.Pairwise (fun x y => x.lineno + x.dupes ≤ y.lineno ∧ x.lineno < y.lineno) ∧
      ∀ j', j ≤ j' → j' + bl < ls.length → (∃ x ∈ E, x.lineno = j') ∨ ¬ Same (texts ls) i j' bl ∨
        ∃ j0 h0, j ≤ j0 ∧ j0 < j' ∧ j' < j0 + h0 ∧ i + h0 ≤ j0 ∧ Same (texts ls) i j0 h0 ∧
          (h0 < bl ∨ ∃ x ∈ E, x.lineno = j0 ∧ x.dupes = h0)
  | 0, j, m, c, lg, _, hf => by omega
  | fuel + 1, j, m, c, lg, hj, hf => by
    unfold jLoop
    by_cases hc : j + bl < ls.length
    · rw [if_pos hc]
      obtain ⟨h, r1, r2, r3, r4, r5⟩ := matchLoop_spec hh (i := i) (j := j) (by omega) bl 0 (by omega)
        (fun k hk => by omega)
      rw [r1]
      simp only [ok_bind]
      by_cases hb : h = bl
      · rw [if_pos hb]
        obtain ⟨h', e1, e2, e3⟩ := extendLoop_spec hh (i := i) (j := j) (ls.length + 1) h (by omega) (by omega) (by omega) r2
        rw [e1]
        simp only [ok_bind]
        obtain ⟨E, q1, q2, q3, q4⟩ := jLoop_spec hh bl i fuel (j + if h' ≠ 0 then h' else 1) (record m i ⟨h', j⟩) (c + 1)
          (if h' > lg then h' else lg) (by omega) (by split <;> omega)
        have hstep : j + h' ≤ (j + if h' ≠ 0 then h' else 1) ∧ j < (j + if h' ≠ 0 then h' else 1) := by split <;> omega
        refine ⟨⟨h', j⟩ :: E, ?_, ?_, ?_, ?_⟩
        · rw [q1]
          simp only [recordAll, List.foldl_cons, longestOf, List.length_cons]
          rw [show c + 1 + E.length = c + (E.length + 1) by omega]
        · intro x hx
          rcases List.mem_cons.1 hx with rfl | hx
          · exact ⟨Nat.le_refl _, hc, by simp only; omega, e3⟩
          · obtain ⟨x1, x2⟩ := q2 x hx
            exact ⟨by omega, x2⟩
        · refine List.pairwise_cons.2 ⟨fun y hy => ?_, q3⟩
          have := (q2 y hy).1
          simp only
          omega
        · intro j' hj' hn
          rcases Nat.lt_or_ge j' (j + if h' ≠ 0 then h' else 1) with hlt | hge
          · by_cases hjj : j' = j
            · exact .inl ⟨⟨h', j⟩, by simp, hjj.symm⟩
            · refine .inr (.inr ⟨j, h', Nat.le_refl _, by omega, ?_, e3.1.1, e3.1.2.2, .inr ⟨⟨h', j⟩, by simp, rfl, rfl⟩⟩)
              by_cases h0 : h' ≠ 0
              · rw [if_pos h0] at hlt; exact hlt
              · rw [if_neg h0] at hlt; omega
          · rcases q4 j' hge hn with ⟨x, hx, hxl⟩ | hns | ⟨j0, h0, z1, z2, z3, z4, z5, z6⟩
            · exact .inl ⟨x, by simp [hx], hxl⟩
            · exact .inr (.inl hns)
            · refine .inr (.inr ⟨j0, h0, by omega, z2, z3, z4, z5, ?_⟩)
              rcases z6 with z6 | ⟨x, hx, hz⟩
              · exact .inl z6
              · exact .inr ⟨x, by simp [hx], hz⟩
      · rw [if_neg hb]
        obtain ⟨E, q1, q2, q3, q4⟩ := jLoop_spec hh bl i fuel (j + if h ≠ 0 then h else 1) m c lg (by omega)
          (by split <;> omega)
        have hstep : j + h ≤ (j + if h ≠ 0 then h else 1) ∧ j < (j + if h ≠ 0 then h else 1) := by split <;> omega
        refine ⟨E, q1, ?_, q3, ?_⟩
        · intro x hx
          obtain ⟨x1, x2⟩ := q2 x hx
          exact ⟨by omega, x2⟩
        · intro j' hj' hn
          rcases Nat.lt_or_ge j' (j + if h ≠ 0 then h else 1) with hlt | hge
          · by_cases hjj : j' = j
            · subst hjj
              refine .inr (.inl ?_)
              have := r5 (by omega)
              rwa [Nat.zero_add] at this
            · refine .inr (.inr ⟨j, h, Nat.le_refl _, by omega, ?_, by omega, r2, .inl (by omega)⟩)
              by_cases h0 : h ≠ 0
              · rw [if_pos h0] at hlt; exact hlt
              · rw [if_neg h0] at hlt; omega
          · rcases q4 j' hge hn with hx | hns | ⟨j0, h0, z1, z2⟩
            · exact .inl hx
            · exact .inr (.inl hns)
            · exact .inr (.inr ⟨j0, h0, by omega, z2⟩)
    · rw [if_neg hc]
      refine ⟨[], rfl, by simp, .nil, fun j' hj' hn => by omega⟩

/-! ### Sorted lists of items -/

/-- Strictly before, in the order of the output. -/
def Before (a b : Item) : Prop := b.dupes < a.dupes ∨ (b.dupes = a.dupes ∧ a.lineno < b.lineno)

theorem cmp_neg (a b : Item) : sortitem_cmp a b < 0 ↔ Before a b := by
  unfold sortitem_cmp Before
  split <;> omega

theorem Before.trans {a b c : Item} (h1 : Before a b) (h2 : Before b c) : Before a c := by
  unfold Before at *; omega

theorem before_total {a b : Item} (h : a.lineno ≠ b.lineno) : Before a b ∨ Before b a := by
  unfold Before; omega

theorem insertSorted_perm (x : Item) : ∀ xs, (insertSorted x xs).Perm (x :: xs)
  | [] => List.Perm.refl _
  | y :: ys => by
    unfold insertSorted
    split
    · exact ((insertSorted_perm x ys).cons y).trans (List.Perm.swap x y ys)
    · exact List.Perm.refl _

theorem insertSorted_sorted (x : Item) : ∀ xs, xs.Pairwise Before → (∀ y ∈ xs, y.lineno ≠ x.lineno) →
    (insertSorted x xs).Pairwise Before
  | [], _, _ => List.pairwise_singleton _ _
  | y :: ys, hs, hd => by
    obtain ⟨h1, h2⟩ := List.pairwise_cons.1 hs
    unfold insertSorted
    by_cases hc : sortitem_cmp y x < 0
    · rw [if_pos hc]
      refine List.pairwise_cons.2 ⟨fun z hz => ?_, insertSorted_sorted x ys h2 (fun z hz => hd z (by simp [hz]))⟩
      rcases List.mem_cons.1 ((insertSorted_perm x ys).mem_iff.1 hz) with rfl | hz
      · exact (cmp_neg _ _).1 hc
      · exact h1 z hz
    · rw [if_neg hc]
      have hxy : Before x y := by
        rcases before_total (hd y (by simp)) with h | h
        · exact absurd ((cmp_neg _ _).2 h) hc
        · exact h
      refine List.pairwise_cons.2 ⟨fun z hz => ?_, hs⟩
      rcases List.mem_cons.1 hz with rfl | hz
      · exact hxy
      · exact hxy.trans (h1 z hz)

/-- Inserting one after the other. -/
def sortAll (E : List Item) (acc : List Item) : List Item := E.foldl (fun acc x => insertSorted x acc) acc

theorem sortAll_spec : ∀ (E acc : List Item), acc.Pairwise Before → (E.map Item.lineno).Nodup →
    (∀ x ∈ E, ∀ y ∈ acc, y.lineno ≠ x.lineno) → (sortAll E acc).Perm (E ++ acc) ∧ (sortAll E acc).Pairwise Before
  | [], acc, h1, _, _ => ⟨List.Perm.refl _, h1⟩
  | x :: E, acc, h1, h2, h3 => by
    rw [List.map_cons, List.nodup_cons] at h2
    obtain ⟨r1, r2⟩ := sortAll_spec E (insertSorted x acc) (insertSorted_sorted x acc h1 (h3 x (by simp))) h2.2 (by
      intro z hz y hy
      rcases List.mem_cons.1 ((insertSorted_perm x acc).mem_iff.1 hy) with rfl | hy
      · exact fun h => h2.1 (h ▸ List.mem_map_of_mem hz)
      · exact h3 z (by simp [hz]) y hy)
    refine ⟨?_, r2⟩
    refine r1.trans ?_
    refine ((insertSorted_perm x acc).append_left E).trans ?_
    exact List.perm_middle

theorem find_none {m : Map} {k : Nat} (h : ∀ e ∈ m, e.1 ≠ k) : find m k = none := by
  unfold find
  rw [List.find?_eq_none.2 (by simpa using h)]
  rfl

theorem find_mem : ∀ {m : Map} {e : Nat × List Item}, (m.map Prod.fst).Nodup → e ∈ m → find m e.1 = some e.2
  | a :: m, e, hn, he => by
    rw [List.map_cons, List.nodup_cons] at hn
    unfold find
    rcases List.mem_cons.1 he with rfl | he
    · simp
    · have hne : a.1 ≠ e.1 := fun h => hn.1 (h ▸ List.mem_map_of_mem he)
      rw [List.find?_cons_of_neg (by simpa using hne)]
      exact find_mem hn.2 he

theorem record_new {m : Map} {i : Nat} (h : ∀ e ∈ m, e.1 ≠ i) (x : Item) : record m i x = m ++ [(i, [x])] := by
  unfold record
  rw [find_none h]
  rfl

theorem record_old {m : Map} {i : Nat} (h : ∀ e ∈ m, e.1 ≠ i) (d : List Item) (x : Item) :
    record (m ++ [(i, d)]) i x = m ++ [(i, insertSorted x d)] := by
  unfold record
  have : find (m ++ [(i, d)]) i = some d := by
    unfold find
    rw [List.find?_append, List.find?_eq_none.2 (by simpa using h)]
    simp
  rw [this]
  simp only [List.map_append]
  congr 1
  · conv => rhs; rw [← List.map_id m]
    refine List.map_congr_left fun e he => ?_
    rw [if_neg (h e he)]; rfl
  · simp

theorem recordAll_old {m : Map} {i : Nat} (h : ∀ e ∈ m, e.1 ≠ i) : ∀ (E d : List Item),
    recordAll (m ++ [(i, d)]) i E = m ++ [(i, sortAll E d)]
  | [], d => rfl
  | x :: E, d => by
    have := recordAll_old h E (insertSorted x d)
    simp only [recordAll, List.foldl_cons, sortAll] at this ⊢
    rw [record_old h, this]

theorem recordAll_new {m : Map} {i : Nat} (h : ∀ e ∈ m, e.1 ≠ i) (E : List Item) :
    recordAll m i E = if E = [] then m else m ++ [(i, sortAll E [])] := by
  cases E with
  | nil => rfl
  | cons x E =>
    rw [if_neg (by simp)]
    have := recordAll_old h E [x]
    simp only [recordAll, List.foldl_cons, sortAll] at this ⊢
    rw [record_new h, this]
    rfl

theorem longestOf_le : ∀ (E : List Item) (l : Nat), l ≤ longestOf E l ∧ (∀ x ∈ E, x.dupes ≤ longestOf E l) ∧
    (longestOf E l = l ∨ ∃ x ∈ E, x.dupes = longestOf E l)
  | [], l => ⟨Nat.le_refl _, by simp, .inl rfl⟩
  | x :: E, l => by
    obtain ⟨h1, h2, h3⟩ := longestOf_le E (if x.dupes > l then x.dupes else l)
    simp only [longestOf]
    generalize longestOf E (if x.dupes > l then x.dupes else l) = r at *
    refine ⟨by split at h1 <;> omega, ?_, ?_⟩
    · intro y hy
      rcases List.mem_cons.1 hy with rfl | hy
      · split at h1 <;> omega
      · exact h2 y hy
    · rcases h3 with h3 | ⟨y, hy, h3⟩
      · split at h3
        · exact .inr ⟨x, by simp, h3.symm⟩
        · exact .inl h3
      · exact .inr ⟨y, by simp [hy], h3⟩

theorem longestOf_perm {E D : List Item} (h : E.Perm D) : longestOf E 0 = longestOf D 0 := by
  obtain ⟨_, a2, a3⟩ := longestOf_le E 0
  obtain ⟨_, b2, b3⟩ := longestOf_le D 0
  apply Nat.le_antisymm
  · rcases a3 with a3 | ⟨x, hx, a3⟩
    · omega
    · rw [← a3]; exact b2 x (h.mem_iff.1 hx)
  · rcases b3 with b3 | ⟨x, hx, b3⟩
    · omega
    · rw [← b3]; exact a2 x (h.mem_iff.2 hx)

theorem longestOf_sorted {x : Item} {xs : List Item} (h : (x :: xs).Pairwise Before) : longestOf (x :: xs) 0 = x.dupes := by
  obtain ⟨_, a2, a3⟩ := longestOf_le (x :: xs) 0
  apply Nat.le_antisymm
  · rcases a3 with a3 | ⟨y, hy, a3⟩
    · omega
    · rw [← a3]
      rcases List.mem_cons.1 hy with rfl | hy
      · exact Nat.le_refl _
      · have := (List.pairwise_cons.1 h).1 y hy
        unfold Before at this; omega
  · exact a2 x (by simp)

end Ulz.Codedup
