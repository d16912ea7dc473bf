import Verif.Proofs.Filelist
/-! Property C80: filelist_search. -/
namespace Ulz.Props
open Ulz.Filelist Ulz.Filelist.Spec Ulz.Stringptr Ulz.Stringptr.Spec

/-- The directory argument stands for the directory `d`: it is that text, or NULL or empty, and `d` is "./". -/
def Names (dir : Option SP) (d : List Byte) : Prop := (∃ p, dir = some p ∧ Holds p d ∧ d ≠ []) ∨ (d = bytes! "./" ∧ ∀ p, dir = some p → p.size = 0)

/-- C80: a pattern that does not fit the buffer is refused, without asking glob. -/
theorem filelist_search_too_long (dir : Option SP) (d : List Byte) (hdir : Names dir d) (mask : SP) (m : List Byte) (hm : Holds mask m) (hm0 : m ≠ [])
    (hsz : d.length + m.length + 2 < 2 ^ 64) (flags : BitVec 32) (buf : List Byte) (hbuf : buf.length = 4096) (hlong : 4096 ≤ (escape d).length + m.length + 2)
    (glob : List Byte → Bool → Except Int (List (List Byte))) (new : Bool) (grow : Nat → Bool) :
    filelist_search true dir (some mask) flags buf glob new grow = .ok (-1, []) := by
  rw [search_spec dir d hdir mask m hm hm0 hsz flags buf hbuf, if_neg (by omega)]

/-- C80: every other search asks glob for the pattern made of the escaped directory, a slash unless it ends with one, and the mask. An error of glob
    is returned; lack of memory is -1. -/
theorem filelist_search_error (dir : Option SP) (d : List Byte) (hdir : Names dir d) (mask : SP) (m : List Byte) (hm : Holds mask m) (hm0 : m ≠ [])
    (hd : 0 ∉ d) (hm' : 0 ∉ m) (flags : BitVec 32) (buf : List Byte) (hbuf : buf.length = 4096) (hfit : (escape d).length + m.length + 2 < 4096)
    (glob : List Byte → Bool → Except Int (List (List Byte))) (new : Bool) (grow : Nat → Bool) (ret : Int) (hg : glob (pattern d m) (flags.getLsbD 3) = .error ret) :
    filelist_search true dir (some mask) flags buf glob new grow = .ok (ret, []) := by
  have := escape_length_le d
  rw [search_spec dir d hdir mask m hm hm0 (by omega) flags buf hbuf, if_pos hfit, pattern_clean d m hd hm', hg]

/-- C80: the result for paths that all have a name: "./" and "../" if asked for and hidden files are not, then the names, without those for the directory itself
    and the one above unless asked for. -/
theorem filelist_search_correct (dir : Option SP) (d : List Byte) (hdir : Names dir d) (mask : SP) (m : List Byte) (hm : Holds mask m) (hm0 : m ≠ [])
    (hd : 0 ∉ d) (hm' : 0 ∉ m) (flags : BitVec 32) (buf : List Byte) (hbuf : buf.length = 4096) (hfit : (escape d).length + m.length + 2 < 4096)
    (glob : List Byte → Bool → Except Int (List (List Byte))) (ps ns : List (List Byte)) (hps : ∀ p ∈ ps, 0 ∉ p)
    (hg : glob (pattern d m) (flags.getLsbD 3) = .ok (ps.map (· ++ [0]))) (he : Entries flags ps ns) :
    ∃ files, filelist_search true dir (some mask) flags buf glob true (fun _ => true) = .ok (0, files) ∧ HoldsAll files (dots flags ++ ns) := by
  have := escape_length_le d
  rw [search_spec dir d hdir mask m hm hm0 (by omega) flags buf hbuf, if_pos hfit, pattern_clean d m hd hm', hg]
  simp only [Bool.not_true, Bool.false_eq_true, if_false]
  obtain ⟨fs, h1, _, h2, _⟩ := literals_spec flags (fun _ => true)
  rw [h2 (fun _ => rfl)] at h1
  rcases pathLoop_spec flags (fun _ => true) he hps (literals flags fun _ => true).1 _ _ h1 with ⟨files, h3, h4, _⟩ | ⟨_, i, _, h4⟩
  · exact ⟨files, h3, h4⟩
  · exact absurd h4 (by simp)

/-- C80: with any failures of memory: -1 exactly if the list or one of the names cannot be added; "./" and "../" may be missing without notice. -/
theorem filelist_search_memory (dir : Option SP) (d : List Byte) (hdir : Names dir d) (mask : SP) (m : List Byte) (hm : Holds mask m) (hm0 : m ≠ [])
    (hd : 0 ∉ d) (hm' : 0 ∉ m) (flags : BitVec 32) (buf : List Byte) (hbuf : buf.length = 4096) (hfit : (escape d).length + m.length + 2 < 4096)
    (glob : List Byte → Bool → Except Int (List (List Byte))) (ps ns : List (List Byte)) (hps : ∀ p ∈ ps, 0 ∉ p)
    (hg : glob (pattern d m) (flags.getLsbD 3) = .ok (ps.map (· ++ [0]))) (he : Entries flags ps ns) (new : Bool) (grow : Nat → Bool) :
    if new = true ∧ (∀ i, i < ns.length → grow ((dots flags).length + i) = true) then
      ∃ files ds, filelist_search true dir (some mask) flags buf glob new grow = .ok (0, files) ∧ HoldsAll files (ds ++ ns) ∧ ds.Sublist (dots flags)
    else filelist_search true dir (some mask) flags buf glob new grow = .ok (-1, []) := by
  have := escape_length_le d
  rw [search_spec dir d hdir mask m hm hm0 (by omega) flags buf hbuf, if_pos hfit, pattern_clean d m hd hm', hg]
  simp only
  obtain ⟨fs, h1, h2, _, h3⟩ := literals_spec flags grow
  cases new with
  | false => simp
  | true =>
    simp only [Bool.not_true, Bool.false_eq_true, if_false, true_and]
    rcases pathLoop_spec flags grow he hps (literals flags grow).1 _ _ h1 with ⟨files, h4, h5, h6⟩ | ⟨h4, i, hi, h5⟩
    · rw [h3] at h6
      rw [if_pos h6]
      exact ⟨files, fs, h4, h5, h2⟩
    · rw [if_neg]
      · exact h4
      · intro h
        rw [h3, h i hi] at h5
        exact absurd h5 (by simp)

/-- C80: paths that have no name (no slash before their last component, while paths are to be excluded) make the search fail. -/
theorem filelist_search_nameless (dir : Option SP) (d : List Byte) (hdir : Names dir d) (mask : SP) (m : List Byte) (hm : Holds mask m) (hm0 : m ≠ [])
    (hd : 0 ∉ d) (hm' : 0 ∉ m) (flags : BitVec 32) (buf : List Byte) (hbuf : buf.length = 4096) (hfit : (escape d).length + m.length + 2 < 4096)
    (glob : List Byte → Bool → Except Int (List (List Byte))) (ps : List (List Byte)) (hps : ∀ p ∈ ps, 0 ∉ p)
    (hg : glob (pattern d m) (flags.getLsbD 3) = .ok (ps.map (· ++ [0]))) (he : ∃ p ∈ ps, p ≠ [] ∧ ¬ ∃ n, Name flags p n) (new : Bool) (grow : Nat → Bool) :
    filelist_search true dir (some mask) flags buf glob new grow = .ok (-1, []) := by
  have := escape_length_le d
  rw [search_spec dir d hdir mask m hm hm0 (by omega) flags buf hbuf, if_pos hfit, pattern_clean d m hd hm', hg]
  simp only
  split
  · rfl
  · exact pathLoop_err flags grow ps hps he _ _

/-- C80: every list of paths is of one of these two kinds. -/
theorem filelist_paths (flags : BitVec 32) (ps : List (List Byte)) : (∃ ns, Entries flags ps ns) ∨ (∃ p ∈ ps, p ≠ [] ∧ ¬ ∃ n, Name flags p n) := by
  induction ps with
  | nil => exact Or.inl ⟨[], .nil⟩
  | cons p ps ih =>
    rcases ih with ⟨ns, h⟩ | ⟨q, h1, h2⟩
    · by_cases hp : p = []
      · exact Or.inl ⟨ns, hp ▸ .empty h⟩
      · by_cases hn : ∃ n, Name flags p n
        · obtain ⟨n, hn⟩ := hn
          by_cases hd : Dropped flags n
          · exact Or.inl ⟨ns, .drop hp hn hd h⟩
          · exact Or.inl ⟨n :: ns, .keep hp hn hd h⟩
        · exact Or.inr ⟨p, List.mem_cons_self, hp, hn⟩
    · exact Or.inr ⟨q, List.mem_cons_of_mem _ h1, h2⟩

/-- C80: missing arguments. -/
theorem filelist_search_null (l : Bool) (dir mask : Option SP) (flags : BitVec 32) (buf : List Byte) (glob : List Byte → Bool → Except Int (List (List Byte)))
    (new : Bool) (grow : Nat → Bool) (h : l = false ∨ mask = none ∨ ∃ q, mask = some q ∧ q.size = 0) :
    filelist_search l dir mask flags buf glob new grow = .ok (-1, []) := by
  unfold filelist_search
  cases mask with
  | none => rfl
  | some q =>
    rcases h with rfl | h | ⟨q', h, h0⟩
    · rfl
    · exact absurd h (by simp)
    · injection h with h
      subst h
      simp only
      rw [if_pos h0]
      split <;> rfl

/-- C80: the pattern for a directory without backslash stands for this directory and no other. -/
theorem escape_literal (d : List Byte) (h : ch '\\' ∉ d) (t : List Byte) : Literal (escape d) t ↔ t = d := by
  have := literal_escape d h [] [] .nil
  rw [List.append_nil, List.append_nil] at this
  exact ⟨fun h' => literal_unique h' this, fun e => e ▸ this⟩

/-- C80: but a backslash is not escaped: another directory is searched. -/
theorem escape_backslash (x y : List Byte) (c : Byte) (hx : ch '\\' ∉ x) (hy : ch '\\' ∉ y) (hc : ¬ Special c) (t : List Byte) :
    Literal (escape (x ++ ch '\\' :: c :: y)) t ↔ t = x ++ c :: y := by
  have h1 := literal_escape y hy [] [] .nil
  rw [List.append_nil, List.append_nil] at h1
  have e : escape (x ++ ch '\\' :: c :: y) = escape x ++ ch '\\' :: c :: escape y := by
    have hs : ¬ Special (ch '\\') := by decide
    unfold escape
    rw [List.flatMap_append, List.flatMap_cons, List.flatMap_cons, if_neg hs, if_neg hc]
    rfl
  have := literal_escape x hx _ _ (.quoted (c := c) h1)
  rw [e]
  exact ⟨fun h' => literal_unique h' this, fun e => e ▸ this⟩

/-- C99: in general, whatever text the pattern for a directory stands for, it is shorter than the directory if that has a backslash. -/
theorem escape_shortens (d t : List Byte) (h : Literal (escape d) t) : t.length ≤ d.length ∧ (ch '\\' ∈ d → t.length < d.length) :=
  literal_shortens d t h

/-- C99: so the pattern stands for the directory exactly if the directory has no backslash. -/
theorem escape_literal_iff (d : List Byte) : Literal (escape d) d ↔ ch '\\' ∉ d := by
  refine ⟨fun h hd => ?_, fun h => (escape_literal d h d).2 rfl⟩
  have := (escape_shortens d d h).2 hd
  omega

example : escape (bytes! "/a[1]/b*") = bytes! "/a\\[1]/b\\*" := by decide
example : pattern (bytes! "/tmp") (bytes! "*.c") = bytes! "/tmp/*.c" := by decide

/-- Names without paths, hidden files included, "." and ".." not asked for. -/
example (buf : List Byte) (hbuf : buf.length = 4096) (glob : List Byte → Bool → Except Int (List (List Byte)))
    (hg : glob (bytes! "/tmp/*") true = .ok [bytes! "/tmp/../" ++ [0], bytes! "/tmp/.x" ++ [0], bytes! "/tmp/d/" ++ [0]]) :
    ∃ files, filelist_search true (some ⟨bytes! "/tmp", 4⟩) (some ⟨bytes! "*", 1⟩) 12 buf glob true (fun _ => true) = .ok (0, files) ∧ HoldsAll files [bytes! ".x", bytes! "d/"] :=
  filelist_search_correct (some ⟨bytes! "/tmp", 4⟩) (bytes! "/tmp") (Or.inl ⟨_, rfl, ⟨rfl, [], rfl⟩, by simp⟩) ⟨bytes! "*", 1⟩ (bytes! "*") ⟨rfl, [], rfl⟩ (by simp) (by decide) (by decide)
    12 buf hbuf (by decide) glob [bytes! "/tmp/../", bytes! "/tmp/.x", bytes! "/tmp/d/"] [bytes! ".x", bytes! "d/"] (by decide) hg
    (.drop (n := bytes! "../") (by decide) ⟨bytes! "/tmp", bytes! "..", bytes! "/", by decide, by decide, by decide, Or.inr rfl⟩ (by decide)
      (.keep (by decide) ⟨bytes! "/tmp", bytes! ".x", [], by decide, by decide, by decide, Or.inl ⟨rfl, by decide⟩⟩ (by decide)
        (.keep (by decide) ⟨bytes! "/tmp", bytes! "d", bytes! "/", by decide, by decide, by decide, Or.inr rfl⟩ (by decide) .nil)))

end Ulz.Props
