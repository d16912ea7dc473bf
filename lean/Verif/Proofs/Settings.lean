import Verif.Model.Settings
import Verif.Spec.Settings
import Verif.Props.Iniparser
import Verif.Props.Readers
import Verif.Proofs.Inifile
namespace Ulz.Settings
open Spec Ulz.Fileparser.Spec Ulz.Stringptr.Spec
open Ulz.Stringptr (SP)
open Ulz.Iniparser.Spec (Header Bracket)

theorem takeWhile_lt {α : Type} (q : α → Bool) : ∀ (d : List α) (j : Nat), j < (d.takeWhile q).length ↔
    j < d.length ∧ ∀ i ≤ j, ∀ x, d[i]? = some x → q x = true
  | [], j => by simp
  | y :: d, j => by
    rw [List.takeWhile_cons]
    cases hy : q y with
    | false =>
      simp only [Bool.false_eq_true, if_false, List.length_nil, Nat.not_lt_zero, false_iff]
      rintro ⟨-, h⟩
      have := h 0 (Nat.zero_le _) y rfl
      rw [hy] at this; cases this
    | true =>
      simp only [if_true, List.length_cons]
      cases j with
      | zero =>
        simp only [Nat.zero_lt_succ, true_iff, true_and]
        intro i hi x hx
        have : i = 0 := by omega
        subst this
        simp at hx; subst hx; exact hy
      | succ j =>
        rw [Nat.add_lt_add_iff_right, takeWhile_lt q d j, Nat.add_lt_add_iff_right]
        constructor
        · rintro ⟨h1, h2⟩
          refine ⟨h1, fun i hi x hx => ?_⟩
          cases i with
          | zero => simp at hx; subst hx; exact hy
          | succ i => exact h2 i (by omega) x (by simpa using hx)
        · rintro ⟨h1, h2⟩
          exact ⟨h1, fun i hi x hx => h2 (i + 1) (by omega) x (by simpa using hx)⟩

theorem Setting_unique {ls : List (List Byte)} {s k v v' : List Byte} {i i' : Nat} (h : Setting ls s k i v) (h' : Setting ls s k i' v') :
    i = i' ∧ v = v' := by
  obtain ⟨a, ha, ⟨l, hl, hl'⟩, h1, h2, h3, h4⟩ := h
  obtain ⟨b, hb, ⟨m, hm, hm'⟩, g1, g2, g3, g4⟩ := h'
  have hab : a = b := by
    rcases Nat.lt_trichotomy a b with hx | hx | hx
    · exact absurd hl' (g1 a hx l hl)
    · exact hx
    · exact absurd hm' (h1 b hx m hm)
  subst hab
  have hii : i = i' := by
    rcases Nat.lt_trichotomy i i' with hx | hx | hx
    · exact absurd h3 (g4 i ha hx v)
    · exact hx
    · exact absurd g3 (h4 i' hb hx v')
  subst hii
  rw [h3] at g3
  have := Option.some.inj g3
  have := List.append_cancel_left this
  exact ⟨rfl, (List.cons.inj this).2⟩

theorem Setting_take {ls : List (List Byte)} {s k v : List Byte} {i p : Nat} : Setting (ls.take p) s k i v ↔ i < p ∧ Setting ls s k i v := by
  have ht : ∀ j, (ls.take p)[j]? = if j < p then ls[j]? else none := fun j => List.getElem?_take
  constructor
  · rintro ⟨h, hi, ⟨l, hl, hl'⟩, h1, h2, h3, h4⟩
    have hip : i < p := by
      apply Classical.byContradiction
      intro hx
      rw [ht, if_neg hx] at h3; cases h3
    refine ⟨hip, h, hi, ⟨l, ?_, hl'⟩, ?_, ?_, ?_, ?_⟩
    · rw [ht, if_pos (by omega)] at hl; exact hl
    · intro j hj line hx; exact h1 j hj line (by rw [ht, if_pos (by omega)]; exact hx)
    · intro j hj hj' line hx; exact h2 j hj hj' line (by rw [ht, if_pos (by omega)]; exact hx)
    · rw [ht, if_pos hip] at h3; exact h3
    · intro j hj hj' w hx; exact h4 j hj hj' w (by rw [ht, if_pos (by omega)]; exact hx)
  · rintro ⟨hip, h, hi, ⟨l, hl, hl'⟩, h1, h2, h3, h4⟩
    refine ⟨h, hi, ⟨l, ?_, hl'⟩, ?_, ?_, ?_, ?_⟩
    · rw [ht, if_pos (by omega)]; exact hl
    · intro j hj line hx; rw [ht, if_pos (by omega)] at hx; exact h1 j hj line hx
    · intro j hj hj' line hx; rw [ht, if_pos (by omega)] at hx; exact h2 j hj hj' line hx
    · rw [ht, if_pos hip]; exact h3
    · intro j hj hj' w hx; rw [ht, if_pos (by omega)] at hx; exact h4 j hj hj' w hx

/-- The answer for a list of lines. -/
theorem setting_lines {l : List SP} {ls : List (List Byte)} (hl : HoldsAll l ls) (hlen : ls.length < 2 ^ 64) {sec key : SP}
    {s k : List Byte} (hsec : Holds sec s) (hs : s.length + 2 < 2 ^ 64) (hkey : Holds key k) :
    ∃ r, setting l sec key = .ok r ∧
      ((∃ i v p, r = some p ∧ Holds p v ∧ Setting ls s k i v) ∨ (r = none ∧ ∀ i v, ¬Setting ls s k i v)) := by
  obtain ⟨g1, g2⟩ := Props.get_section_correct l ls hl sec s hsec hs 0
  by_cases hex : ∃ (h : Nat) (line : List Byte), ls[h]? = some line ∧ Header s line
  · obtain ⟨h, ⟨line, h1, h2⟩, h3⟩ : ∃ h : Nat, (∃ line, ls[h]? = some line ∧ Header s line) ∧ ∀ j < h, ¬∃ line, ls[j]? = some line ∧ Header s line := by
      obtain ⟨h, hh⟩ := hex
      induction h using Nat.strongRecOn with
      | _ h ih =>
        by_cases hj : ∃ j < h, ∃ line, ls[j]? = some line ∧ Header s line
        · obtain ⟨j, hj, hx⟩ := hj
          exact ih j hj hx
        · exact ⟨h, hh, fun j hj' hx => hj ⟨j, hj', hx⟩⟩
    have e := g2 h line (Nat.zero_le _) h1 h2 (fun i line' _ hi hx hy => h3 i hi ⟨line', hx, hy⟩)
    have hlt : h < ls.length := (List.getElem?_eq_some_iff.1 h1).1
    have key' : ∀ j, h < j → (j < h + 1 + ((ls.drop (h + 1)).takeWhile fun l => decide ¬Bracket l).length ↔
        j < ls.length ∧ ∀ i, h < i → i ≤ j → ∀ x, ls[i]? = some x → ¬Bracket x) := by
      intro j hj
      have := takeWhile_lt (fun l => decide ¬Bracket l) (ls.drop (h + 1)) (j - (h + 1))
      rw [List.length_drop] at this
      constructor
      · intro hx
        obtain ⟨a, b⟩ := this.1 (by omega)
        refine ⟨by omega, fun i hi hi' x hxx => ?_⟩
        have := b (i - (h + 1)) (by omega) x (by rw [List.getElem?_drop, ← hxx]; congr 1; omega)
        simpa using this
      · rintro ⟨a, b⟩
        have := this.2 ⟨by omega, fun i hi x hxx => by
          rw [List.getElem?_drop] at hxx
          simpa using b (h + 1 + i) (by omega) (by omega) x hxx⟩
        omega
    have hcnt : h + 1 + ((ls.drop (h + 1)).takeWhile fun l => decide ¬Bracket l).length ≤ ls.length := by
      have := (List.takeWhile_prefix (l := ls.drop (h + 1)) (fun l => decide ¬Bracket l)).length_le
      rw [List.length_drop] at this
      omega
    have hfirst : ∀ {i v}, Setting ls s k i v → h < i ∧ (∀ j, h < j → j ≤ i → ∀ line, ls[j]? = some line → ¬Bracket line) ∧
        ls[i]? = some (k ++ ch '=' :: v) := by
      rintro i v ⟨a, ha, ⟨m, hm, hm'⟩, f1, f2, f3, -⟩
      have : a = h := by
        rcases Nat.lt_trichotomy a h with hx | hx | hx
        · exact absurd ⟨m, hm, hm'⟩ (h3 a hx)
        · exact hx
        · exact absurd h2 (f1 h hx line h1)
      subst this
      exact ⟨ha, f2, f3⟩
    rcases Props.getvalue_correct l ls hl key k hkey ⟨h + 1, ((ls.drop (h + 1)).takeWhile fun l => decide ¬Bracket l).length⟩
      (by simp only; omega) with ⟨i, v, r, e', hr, k1, k2, k3, k4⟩ | ⟨e', k1⟩
    · refine ⟨some r, ?_, .inl ⟨i, v, r, rfl, hr, h, by simp only at k1; omega, ⟨line, h1, h2⟩, ?_, ?_, k3, ?_⟩⟩
      · unfold setting Iniparser.get_section; rw [e]; exact e'
      · intro j hj line' hx hy; exact h3 j hj ⟨line', hx, hy⟩
      · simp only at k1 k2
        intro j hj hj'
        exact ((key' i (by omega)).1 k2).2 j hj hj'
      · intro j hj hj' w; exact k4 j (by simp only; omega) hj' w
    · refine ⟨none, ?_, .inr ⟨rfl, fun i v hS => ?_⟩⟩
      · unfold setting Iniparser.get_section; rw [e]; exact e'
      · obtain ⟨a, b, c⟩ := hfirst hS
        refine k1 i (by simp only; omega) ?_ v c
        simp only
        exact (key' i a).2 ⟨(List.getElem?_eq_some_iff.1 c).1, b⟩
  · have e := g1 (fun i line _ hx hy => hex ⟨i, line, hx, hy⟩)
    rcases Props.getvalue_correct l ls hl key k hkey ⟨0, 0⟩ (by decide) with ⟨i, v, r, -, -, -, k2, -⟩ | ⟨e', -⟩
    · simp at k2
    · refine ⟨none, ?_, .inr ⟨rfl, ?_⟩⟩
      · unfold setting Iniparser.get_section; rw [e]; exact e'
      · rintro i v ⟨h, -, ⟨m, hm, hm'⟩, -⟩
        exact hex ⟨h, m, hm, hm'⟩

/-- An empty line at the end is no setting. -/
theorem Setting_last {ls : List (List Byte)} {s k v : List Byte} {i : Nat} : Setting (ls ++ [[]]) s k i v ↔ Setting ls s k i v := by
  have h : ls = (ls ++ [[]]).take ls.length := by simp
  constructor
  · intro hS
    have hlt : i < ls.length := by
      obtain ⟨a, -, -, -, -, h3, -⟩ := hS
      apply Classical.byContradiction
      intro hx
      rw [List.getElem?_append_right (by omega)] at h3
      have := List.mem_of_getElem? h3
      simp at this
    rw [h, Setting_take]
    exact ⟨hlt, hS⟩
  · intro hS
    rw [h, Setting_take] at hS
    exact hS.2

theorem Setting_lines {full : List (List Byte)} {last s k v : List Byte} {i : Nat} :
    Setting (full ++ [last]) s k i v ↔ Setting (linesOf full last) s k i v := by
  unfold linesOf
  split
  · rename_i h; subst h; rw [List.append_nil]; exact Setting_last
  · exact Iff.rfl

theorem loadList_spec {mem : Nat → Alloc} {grow : Nat → Bool} (hmem : ∀ k, mem k ≠ none ∧ grow k = true) {data uninit : List Byte}
    {fd : Int} {len : Nat} {full : List (List Byte)} {last : List Byte} (h : Content data full last) (hfd : fd ≠ 0)
    (hb : uninit.length = 1024) :
    ∃ L, loadList mem grow data fd uninit len = .ok L ∧ HoldsAll L ((linesOf full last).takeWhile Taken) := by
  obtain ⟨n, L, r, e, hL, -, hr⟩ := Props.fromfile_correct mem grow data uninit fd len [] [] .nil full last h hfd hb
  have hr : r = 1 ∧ n = ((linesOf full last).takeWhile Taken).length := by
    rcases hr with hr | ⟨-, -, hr⟩
    · exact hr
    · exact absurd (hmem n) hr
  obtain ⟨rfl, rfl⟩ := hr
  refine ⟨L, by unfold loadList; rw [e]; rfl, ?_⟩
  rw [List.nil_append, List.take_of_length_le (Nat.le_refl _)] at hL
  exact hL

theorem loadSplit_spec {data : List Byte} (h0 : data ≠ []) (hs : data.length + 17 < 2 ^ 64) {full : List (List Byte)} {last : List Byte}
    (h : Content data full last) (f : Nat → Byte) {answers : List (Option Nat)} (h1 : none ∉ answers)
    (h2 : data.length ≤ Wholefile.Spec.useful answers) :
    ∃ L, loadSplit (some f) data answers = .ok L ∧ HoldsAll L (full ++ [last]) := by
  unfold loadSplit
  rcases Props.stringptr_fromfile_correct data.length (List.length_pos_iff.2 h0) hs data (Nat.le_refl _) f answers with
    ⟨p, e, hp, hb⟩ | ⟨-, hx⟩ | ⟨-, -, hx⟩
  · rw [e]
    simp only [ok_bind]
    have hp' : p = ⟨data ++ 0 :: [], data.length⟩ := by
      cases p with
      | mk buf size =>
        rw [List.take_of_length_le (Nat.le_refl _)] at hb hp
        simp only at hb
        rw [hb]
        congr 1
        exact hp.1
    rw [hp']
    obtain ⟨pcs, res, k1, k2, k3, k4, k5⟩ := Props.stringptr_splitc_correct data [] 0 (ch '\n') (fun _ => true)
    rw [k1]
    simp only [ok_bind]
    rw [Props.keep_everything] at k5
    rw [Readers.content_pieces h k2 k3 (by intro hx; rw [hx] at k4; simp at k4)] at k5
    exact ⟨_, rfl, (Inifile.entries_holds k5).1⟩
  · exact absurd hx h1
  · omega

theorem content_exists (data : List Byte) : ∃ full last, Content data full last := by
  induction data with
  | nil => exact ⟨[], [], by simp, by simp, by simp⟩
  | cons c data ih =>
    obtain ⟨full, last, h1, h2, h3⟩ := ih
    by_cases hc : c = ch '\n'
    · exact ⟨[] :: full, last, by rw [h1, hc]; simp, by simpa using h2, h3⟩
    · cases full with
      | nil => exact ⟨[], c :: last, by rw [h1]; simp, by simp, by simpa using ⟨fun h => hc h.symm, h3⟩⟩
      | cons x full =>
        refine ⟨(c :: x) :: full, last, by rw [h1]; simp, ?_, h3⟩
        intro l hl
        rcases List.mem_cons.1 hl with rfl | hl
        · have := h2 x (by simp)
          simp only [List.mem_cons, not_or]
          exact ⟨fun h => hc h.symm, this⟩
        · exact h2 l (by simp [hl])

end Ulz.Settings
