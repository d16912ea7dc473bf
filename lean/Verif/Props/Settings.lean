import Verif.Proofs.Settings
namespace Ulz.Props
open Ulz.Settings Ulz.Settings.Spec Ulz.Fileparser.Spec Ulz.Stringptr.Spec
open Ulz.Stringptr (SP)
open Ulz.Wholefile.Spec (useful)

/-- C236. A file has at most one setting for each section and key. -/
theorem settings_unique (ls : List (List Byte)) (s k v v' : List Byte) (i i' : Nat) (h : Setting ls s k i v) (h' : Setting ls s k i' v') :
    i = i' ∧ v = v' := Setting_unique h h'

/-- C236. Read with stringptr_fromfile and stringptr_linesplit, every setting of the file is found, wherever it stands and however long
    its line is. -/
theorem settings_split (data : List Byte) (hne : data ≠ []) (hs : data.length + 17 < 2 ^ 64) (full : List (List Byte)) (last : List Byte)
    (h : Content data full last) (f : Nat → Byte) (answers : List (Option Nat)) (h1 : none ∉ answers) (h2 : data.length ≤ useful answers)
    (sec key : SP) (s k : List Byte) (hsec : Holds sec s) (hn : s.length + 2 < 2 ^ 64) (hkey : Holds key k) :
    ∃ L r, loadSplit (some f) data answers = .ok L ∧ setting L sec key = .ok r ∧
      ∀ v, (∃ p, r = some p ∧ Holds p v) ↔ ∃ i, Setting (linesOf full last) s k i v := by
  obtain ⟨L, e, hL⟩ := loadSplit_spec hne hs h f h1 h2
  have hlen : (full ++ [last]).length < 2 ^ 64 := by
    have := Readers.content_length h
    simp only [List.length_append, List.length_singleton]
    omega
  obtain ⟨r, e', hr⟩ := setting_lines hL hlen hsec hn hkey
  refine ⟨L, r, e, e', fun v => ?_⟩
  rcases hr with ⟨i, w, p, rfl, hp, hS⟩ | ⟨rfl, hS⟩
  · rw [Setting_lines] at hS
    constructor
    · rintro ⟨q, hq, hv⟩
      injection hq with hq
      subst hq
      have : v = w := by
        have a := hp.2; have b := hv.2
        have hl : v.length = w.length := by rw [← hv.1, ← hp.1]
        obtain ⟨t, ht⟩ := a
        obtain ⟨u, hu⟩ := b
        exact (List.append_inj (hu.trans ht.symm) hl).1
      subst this
      exact ⟨i, hS⟩
    · rintro ⟨j, hj⟩
      obtain ⟨-, rfl⟩ := Setting_unique hS hj
      exact ⟨p, rfl, hp⟩
  · constructor
    · rintro ⟨q, hq, -⟩; cases hq
    · rintro ⟨j, hj⟩; exact absurd (Setting_lines.2 hj) (hS j v)

/-- C236. Read with stringptrlist_fromfile, memory being available, a setting is found exactly if neither its line nor any line before it is
    empty or has 1024 bytes or more. A setting that is not found is NULL; no other value takes its place. -/
theorem settings_list (mem : Nat → Alloc) (grow : Nat → Bool) (hmem : ∀ k, mem k ≠ none ∧ grow k = true) (data : List Byte)
    (hs : data.length + 17 < 2 ^ 64) (full : List (List Byte)) (last : List Byte) (h : Content data full last) (fd : Int) (hfd : fd ≠ 0)
    (uninit : List Byte) (hb : uninit.length = 1024) (len : Nat) (sec key : SP) (s k : List Byte) (hsec : Holds sec s)
    (hn : s.length + 2 < 2 ^ 64) (hkey : Holds key k) :
    ∃ L r, loadList mem grow data fd uninit len = .ok L ∧ setting L sec key = .ok r ∧
      ∀ v, (∃ p, r = some p ∧ Holds p v) ↔
        ∃ i, Setting (linesOf full last) s k i v ∧ ∀ j ≤ i, ∀ line, (linesOf full last)[j]? = some line → line ≠ [] ∧ line.length < 1024 := by
  obtain ⟨L, e, hL⟩ := loadList_spec (len := len) hmem h hfd hb
  have hpre := List.takeWhile_prefix (l := linesOf full last) Taken
  have hlen : ((linesOf full last).takeWhile Taken).length < 2 ^ 64 := by
    have := Readers.content_length h
    have h2 := hpre.length_le
    have h3 : (linesOf full last).length ≤ full.length + 1 := by
      unfold linesOf; split <;> simp
    omega
  obtain ⟨r, e', hr⟩ := setting_lines hL hlen hsec hn hkey
  have htake : (linesOf full last).takeWhile Taken = (linesOf full last).take ((linesOf full last).takeWhile Taken).length :=
    List.prefix_iff_eq_take.1 hpre
  have key' : ∀ i v, Setting ((linesOf full last).takeWhile Taken) s k i v ↔ Setting (linesOf full last) s k i v ∧
      ∀ j ≤ i, ∀ line, (linesOf full last)[j]? = some line → line ≠ [] ∧ line.length < 1024 := by
    intro i v
    rw [htake, Setting_take, takeWhile_lt]
    constructor
    · rintro ⟨⟨-, a⟩, b⟩
      exact ⟨b, fun j hj line hx => by simpa [Taken] using a j hj line hx⟩
    · rintro ⟨a, b⟩
      refine ⟨⟨?_, fun j hj line hx => by simpa [Taken] using b j hj line hx⟩, a⟩
      obtain ⟨-, -, -, -, -, h3, -⟩ := a
      exact (List.getElem?_eq_some_iff.1 h3).1
  refine ⟨L, r, e, e', fun v => ?_⟩
  rcases hr with ⟨i, w, p, rfl, hp, hS⟩ | ⟨rfl, hS⟩
  · constructor
    · rintro ⟨q, hq, hv⟩
      injection hq with hq
      subst hq
      have : v = w := by
        have a := hp.2; have b := hv.2
        have hl : v.length = w.length := by rw [← hv.1, ← hp.1]
        obtain ⟨t, ht⟩ := a
        obtain ⟨u, hu⟩ := b
        exact (List.append_inj (hu.trans ht.symm) hl).1
      subst this
      exact ⟨i, (key' i v).1 hS⟩
    · rintro ⟨j, hj⟩
      obtain ⟨-, rfl⟩ := Setting_unique hS ((key' j v).2 hj)
      exact ⟨p, rfl, hp⟩
  · constructor
    · rintro ⟨q, hq, -⟩; cases hq
    · rintro ⟨j, hj⟩; exact absurd ((key' j v).2 hj) (hS j v)

/-- C236. Writing the lines back with stringptrlist_tofile after splitting the file: one line feed is added, whether or not the file ended
    with one. -/
theorem settings_resave_split (data : List Byte) (hne : data ≠ []) (hs : data.length + 17 < 2 ^ 64) (f : Nat → Byte)
    (answers : List (Option Nat)) (h1 : none ∉ answers) (h2 : data.length ≤ useful answers) :
    (loadSplit (some f) data answers >>= save) = .ok (data ++ [ch '\n']) := by
  obtain ⟨full, last, h⟩ := content_exists data
  obtain ⟨L, e, hL⟩ := loadSplit_spec hne hs h f h1 h2
  rw [e]
  simp only [ok_bind, save]
  rw [tofile_correct L _ hL]
  simp only [ok_bind, pure_eq_ok, List.map_append, List.map_cons, List.map_nil, List.flatten_append, List.flatten_cons, List.flatten_nil,
    List.append_nil]
  conv => rhs; rw [h.eq]
  simp

/-- C236. So the file grows with every round of reading and writing. -/
theorem settings_rounds (k : Nat) (data : List Byte) (hne : data ≠ []) (hs : data.length + k + 17 < 2 ^ 64) (f : Nat → Byte)
    (answers : Nat → List (Option Nat)) (h1 : ∀ i, none ∉ answers i) (h2 : ∀ i, data.length + k ≤ useful (answers i)) :
    rounds f answers k data = .ok (data ++ List.replicate k (ch '\n')) := by
  induction k generalizing data with
  | zero => simp [rounds]
  | succ k ih =>
    have e := settings_resave_split data hne (by omega) f (answers k) (h1 k) (Nat.le_trans (by omega) (h2 k))
    unfold rounds
    cases hx : loadSplit (some f) data (answers k) with
    | error u => rw [hx] at e; cases e
    | ok L =>
      rw [hx] at e
      simp only [ok_bind] at e ⊢
      rw [e]
      simp only [ok_bind]
      rw [ih _ (by simp) (by simp; omega) (fun i => by have := h2 i; simp; omega)]
      rw [List.append_assoc, List.replicate_succ]
      rfl

/-- C236. Writing them back after stringptrlist_fromfile: the lines before the first one that is empty or has 1024 bytes or more, each with
    a line feed. Nothing is changed exactly if there is no such line and the file is empty or ends with a line feed. -/
theorem settings_resave_list (mem : Nat → Alloc) (grow : Nat → Bool) (hmem : ∀ k, mem k ≠ none ∧ grow k = true) (data : List Byte)
    (full : List (List Byte)) (last : List Byte) (h : Content data full last) (fd : Int) (hfd : fd ≠ 0)
    (uninit : List Byte) (hb : uninit.length = 1024) (len : Nat) :
    ∃ data', (loadList mem grow data fd uninit len >>= save) = .ok data' ∧
      data' = (((linesOf full last).takeWhile fun l => decide (l ≠ [] ∧ l.length < 1024)).map (· ++ [ch '\n'])).flatten ∧
      (data' = data ↔ last = [] ∧ ∀ l ∈ full, l ≠ [] ∧ l.length < 1024) := by
  obtain ⟨L, e, hL⟩ := loadList_spec (len := len) hmem h hfd hb
  have hT : (fun l => decide (l ≠ [] ∧ l.length < 1024)) = Taken := rfl
  refine ⟨_, ?_, rfl, ?_⟩
  · rw [e]
    simp only [ok_bind, save]
    rw [tofile_correct L _ hL]
    rfl
  · rw [hT]
    constructor
    · intro he
      have hlen := Readers.content_length h
      have hll : ∀ ls : List (List Byte), ((ls.map (· ++ [ch '\n'])).flatten).length = ls.flatten.length + ls.length := by
        intro ls
        induction ls with
        | nil => rfl
        | cons x ls ih => simp at ih ⊢; omega
      have hpre := List.takeWhile_prefix (l := linesOf full last) Taken
      have e1 := hll ((linesOf full last).takeWhile Taken)
      rw [he] at e1
      obtain ⟨t, ht⟩ := hpre
      have e2 : (linesOf full last).flatten.length = ((linesOf full last).takeWhile Taken).flatten.length + t.flatten.length := by
        conv => lhs; rw [← ht]
        simp
      have e3 : (linesOf full last).length = ((linesOf full last).takeWhile Taken).length + t.length := by
        conv => lhs; rw [← ht]
        simp
      have e4 : (linesOf full last).flatten.length = (full ++ [last]).flatten.length := by
        unfold linesOf; split
        · rename_i hx; simp [hx]
        · simp
      by_cases hl : last = []
      · refine ⟨hl, ?_⟩
        have hfl : linesOf full last = full := by simp [linesOf, hl]
        rw [hfl] at e2 e3 e4 ht e1
        have : t = [] := List.eq_nil_of_length_eq_zero (by omega)
        rw [this, List.append_nil] at ht
        intro l hx
        rw [← ht] at hx
        simpa [Taken] using Readers.takeWhile_mem hx
      · exfalso
        have hfl : linesOf full last = full ++ [last] := by simp [linesOf, hl]
        have hne : data ≠ [] := by rw [h.eq]; simp [hl]
        -- the written text ends with a line feed, the file does not
        have hlast : data.getLast? ≠ some (ch '\n') := by
          intro hg
          obtain ⟨init, x, rfl⟩ := List.eq_nil_or_concat last |>.resolve_left hl
          rw [h.eq, List.concat_eq_append, ← List.append_assoc, List.getLast?_concat] at hg
          exact h.lf' (by rw [Option.some.inj hg]; simp)
        rw [← he] at hlast hne
        have hn : (linesOf full last).takeWhile Taken ≠ [] := by
          intro hx; rw [hx] at hne; exact hne rfl
        obtain ⟨init, x, hx⟩ := List.eq_nil_or_concat ((linesOf full last).takeWhile Taken) |>.resolve_left hn
        rw [hx] at hlast
        simp at hlast
    · rintro ⟨hl, ha⟩
      have hfl : linesOf full last = full := by simp [linesOf, hl]
      rw [hfl, Readers.takeWhile_all (fun x hx => by simpa [Taken] using ha x hx)]
      conv => rhs; rw [h.eq, hl, List.append_nil]

/-- A file with an empty line between its sections. -/
example : Content (bytes! "[a]\nx=1\n\n[b]\ny=2\n") [bytes! "[a]", bytes! "x=1", [], bytes! "[b]", bytes! "y=2"] [] :=
  ⟨by decide, by decide, by decide⟩

/-- Its setting `y` stands behind the empty line. -/
example : Setting [bytes! "[a]", bytes! "x=1", [], bytes! "[b]", bytes! "y=2"] (bytes! "b") (bytes! "y") 4 (bytes! "2") := by
  refine ⟨3, by decide, ⟨bytes! "[b]", rfl, by decide⟩, ?_, ?_, rfl, ?_⟩
  · intro j hj line hx
    match j, hj with
    | 0, _ | 1, _ | 2, _ => simp at hx; subst hx; decide
  · intro j h1 h2 line hx
    have : j = 4 := by omega
    subst this
    simp at hx; subst hx; decide
  · intro j h1 h2; omega

end Ulz.Props
