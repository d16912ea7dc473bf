import Verif.Proofs.Listfiles
/-! Properties C136, C137 and C138: the programs that list a directory tree. -/
namespace Ulz.Props
open Ulz.Listfiles Ulz.Listfiles.Spec Ulz.Filelist.Spec

/-- C136: both programs print for any directory tree the path of the directory and then, each on a line of its own, the paths of all
    files and directories in it, every directory before its contents; only directories that cannot be listed are missing. -/
theorem listing_correct (e : Env) (hb : e.buf.length = 4096) (f : Nat → Byte) (d : List Byte) (hz : 0 ∉ d) (t : Tree)
    (hs : Shows e (start d) t) (hm : t.Mounted e (start d)) :
    main1 e (some f) [d] = .ok ((start d :: t.listed (start d)).flatMap (· ++ [ch '\n']), 0) ∧
    main2 e f [d] = .ok ((start d :: t.listed (start d)).flatMap (· ++ [ch '\n']), 0) := by
  have hle : d.length < 4093 := by
    have h1 := hs.1
    have h2 := Filelist.escape_length_le (start d)
    have : d.length ≤ (start d).length := by unfold start; split <;> simp
    omega
  constructor
  · rw [main1_eq e f hz (by omega)]
    rw [doDir1_spec hb 4097 (start d) t _ _ (by omega) (start_last d) (start_clean hz) hs hm (Or.inl ⟨_, rfl, holds_cat _, last_ne (start_last d)⟩)
      (line_spec (holds_cat _))]
    rfl
  · obtain ⟨u, subd, h1, h2, _, h3⟩ := main2_eq e f hz
    rw [h3, doDir2_spec hb f (holds_cat d) 4097 u (start d) t subd h1 h2 (by omega) (start_last d) (start_clean hz) hs hm]
    rfl

/-- C136: the lines that are missing compared with `find` are those for the directories that cannot be listed; if there are none, the
    output is that of `find` (but for the slashes behind directories). -/
theorem listing_count (t : Tree) (p : List Byte) :
    (t.find p).length = (t.listed p).length + t.closeds ∧ (t.listed p).Sublist (t.find p) ∧ (t.closeds = 0 → t.listed p = t.find p) := by
  induction t generalizing p with
  | nil => exact ⟨rfl, List.Sublist.refl _, fun _ => rfl⟩
  | file n r ih =>
    obtain ⟨h1, h2, h3⟩ := ih p
    refine ⟨?_, ?_, ?_⟩
    · simp only [Tree.find, Tree.listed, Tree.closeds, List.length_cons]; omega
    · exact h2.cons_cons _
    · intro h
      simp only [Tree.find, Tree.listed]
      rw [h3 h]
  | dir n s r ihs ihr =>
    obtain ⟨a1, a2, a3⟩ := ihs (below p n)
    obtain ⟨b1, b2, b3⟩ := ihr p
    refine ⟨?_, ?_, ?_⟩
    · simp only [Tree.find, Tree.listed, Tree.closeds, List.length_cons, List.length_append]; omega
    · exact (a2.append b2).cons_cons _
    · intro h
      simp only [Tree.closeds] at h
      simp only [Tree.find, Tree.listed]
      rw [a3 (by omega), b3 (by omega)]
  | closed n r ih =>
    obtain ⟨h1, h2, h3⟩ := ih p
    refine ⟨?_, ?_, ?_⟩
    · simp only [Tree.find, Tree.listed, Tree.closeds, List.length_cons]; omega
    · exact h2.cons _
    · intro h
      simp [Tree.closeds] at h

/-- C137: whatever the file system looks like (also if directories contain themselves through links), whatever fails and whatever the
    arguments are, both programs end, without invalid accesses; with one argument the exit status is 0. -/
theorem listing_total (e : Env) (he : Env.Ok e) (a : Alloc) (f : Nat → Byte) (args : List (List Byte))
    (hargs : ∀ d ∈ args, 0 ∉ d ∧ d.length < 2 ^ 60) :
    (∃ o, main1 e a args = .ok (o, if args.length = 1 then 0 else 1)) ∧ (∃ o, main2 e f args = .ok (o, if args.length = 1 then 0 else 1)) := by
  match args, hargs with
  | [], _ => exact ⟨⟨_, rfl⟩, ⟨_, rfl⟩⟩
  | _ :: _ :: _, _ =>
    have h : ∀ n, ¬ (n + 1 + 1 = 1) := by omega
    constructor
    · refine ⟨syntax_text, ?_⟩
      rw [List.length_cons, List.length_cons, if_neg (h _)]; rfl
    · refine ⟨syntax_text, ?_⟩
      rw [List.length_cons, List.length_cons, if_neg (h _)]; rfl
  | [d], hargs =>
    obtain ⟨hz, hl⟩ := hargs d List.mem_cons_self
    have hsl : (start d).length ≤ d.length + 1 := by unfold start; split <;> simp
    rw [List.length_singleton, if_pos rfl]
    constructor
    · cases a with
      | some f =>
        rw [main1_eq e f hz (by omega)]
        obtain ⟨o, ho⟩ := doDir1_total he 4097 (start d) _ _ (by omega) (by omega) (start_clean hz) (by omega)
          (Or.inl ⟨_, rfl, holds_cat _, last_ne (start_last d)⟩) (line_spec (holds_cat _))
        rw [ho]
        exact ⟨o, rfl⟩
      | none =>
        by_cases h : d.getLast? = some (ch '/')
        · have h1 := main1_eq e (fun _ => 0) hz (by omega)
          have h2 : main1 e none [d] = main1 e (some fun _ => 0) [d] := by
            have h0 : Stringptr.fromchar (some (d ++ [0])) = .ok ⟨d ++ [0], d.length⟩ := by
              unfold Stringptr.fromchar
              simp only
              rw [Hex.strlen_cstr d [] hz]; rfl
            unfold main1
            simp only [h0, ok_bind]
            rw [isdir_spec (holds_cat d), decide_eq_true h]
            rfl
          rw [h2, h1]
          obtain ⟨o, ho⟩ := doDir1_total he 4097 (start d) _ _ (by omega) (by omega) (start_clean hz) (by omega)
            (Or.inl ⟨_, rfl, holds_cat _, last_ne (start_last d)⟩) (line_spec (holds_cat _))
          rw [ho]
          exact ⟨o, rfl⟩
        · rw [main1_none e hz h]
          obtain ⟨o, ho⟩ := doDir1_total he 4097 (bytes! "./") none _ (by omega) (by omega) (by decide) (by decide)
            (Or.inr ⟨rfl, by simp⟩) rfl
          rw [ho]
          exact ⟨o, rfl⟩
    · obtain ⟨u, subd, h1, h2, h4, h3⟩ := main2_eq e f hz
      rw [h3]
      have hu : 0 ∉ u := by
        intro h
        apply start_clean hz
        rw [← h2]
        exact List.mem_append_right _ h
      obtain ⟨o, ho⟩ := doDir2_total he f (holds_cat d) hz (by omega) 4097 u subd h1 (by omega) (by omega) hu (by omega)
        (by rw [h2]; exact last_ne (start_last d))
      rw [ho]
      exact ⟨o, rfl⟩

/-- C138: the empty argument is taken for the root directory. -/
theorem listing_empty_argument (e : Env) (f : Nat → Byte) : main1 e (some f) [[]] = main1 e (some f) [bytes! "/"] := by
  rw [main1_eq e f (by decide) (by decide), main1_eq e f (by decide) (by decide)]
  rfl

/-- C138: if the first program has no memory for the path of the directory, it lists the current directory instead, after an empty
    line, and reports success. -/
theorem listing_no_memory (e : Env) (hb : e.buf.length = 4096) (d : List Byte) (hz : 0 ∉ d) (hd : d.getLast? ≠ some (ch '/')) (t : Tree)
    (hs : Shows e (bytes! "./") t) (hm : t.Mounted e (bytes! "./")) :
    main1 e none [d] = .ok (([] :: t.listed (bytes! "./")).flatMap (· ++ [ch '\n']), 0) := by
  rw [main1_none e hz hd, doDir1_spec hb 4097 (bytes! "./") t none _ (by omega) (by decide) (by decide) hs hm (Or.inr ⟨rfl, by simp⟩) rfl]
  rfl

/-- A directory `a` with a file `.x`, a directory `s` with a file `y`, and a directory `z` that cannot be read. -/
def listEnv (buf : List Byte) : Env where
  glob p _ :=
    if p = bytes! "a/*" then .ok [bytes! "a/./" ++ [0], bytes! "a/../" ++ [0], bytes! "a/.x" ++ [0], bytes! "a/s/" ++ [0], bytes! "a/z/" ++ [0]]
    else if p = bytes! "a/s/*" then .ok [bytes! "a/s/./" ++ [0], bytes! "a/s/y" ++ [0]]
    else .error 3
  buf := buf

def listTree : Tree := .file (bytes! ".x") (.dir (bytes! "s") (.file (bytes! "y") .nil) (.closed (bytes! "z") .nil))

theorem listEnv_shows (buf : List Byte) : Shows (listEnv buf) (bytes! "a/") listTree :=
  ⟨by decide, [bytes! "a/./", bytes! "a/../", bytes! "a/.x", bytes! "a/s/", bytes! "a/z/"], by decide, rfl, by decide⟩

theorem listEnv_mounted (buf : List Byte) : listTree.Mounted (listEnv buf) (bytes! "a/") :=
  ⟨⟨by decide, by decide, by decide, by decide, by decide, by decide⟩, ⟨by decide, by decide, by decide, by decide, by decide, by decide⟩,
    ⟨by decide, [bytes! "a/s/./", bytes! "a/s/y"], by decide, rfl, by decide⟩, ⟨⟨by decide, by decide, by decide, by decide, by decide, by decide⟩, trivial⟩,
    ⟨by decide, by decide, by decide, by decide, by decide, by decide⟩, Or.inr ⟨3, by decide, rfl⟩, trivial⟩

example (buf : List Byte) (hb : buf.length = 4096) : main1 (listEnv buf) (some fun _ => 7) [bytes! "a"] = .ok (bytes! "a/\na/.x\na/s/\na/s/y\n", 0) :=
  (listing_correct (listEnv buf) hb _ (bytes! "a") (by decide) listTree (listEnv_shows buf) (listEnv_mounted buf)).1
example (buf : List Byte) (hb : buf.length = 4096) : main2 (listEnv buf) (fun _ => 7) [bytes! "a"] = .ok (bytes! "a/\na/.x\na/s/\na/s/y\n", 0) :=
  (listing_correct (listEnv buf) hb _ (bytes! "a") (by decide) listTree (listEnv_shows buf) (listEnv_mounted buf)).2
/-- `find` would also print `a/z/`. -/
example : listTree.find (bytes! "a/") = [bytes! "a/.x", bytes! "a/s/", bytes! "a/s/y", bytes! "a/z/"] ∧ listTree.closeds = 1 := by decide

/-- A directory that contains itself. -/
def loopEnv (buf : List Byte) : Env where
  glob p _ := if ch '/' ∈ p ∧ 0 ∉ p ∧ p.length < 4096 then .ok [p ++ bytes! "x/" ++ [0]] else .error 3
  buf := buf

theorem loopEnv_ok (buf : List Byte) (hb : buf.length = 4096) : Env.Ok (loopEnv buf) where
  buf := hb
  strings := by
    intro p b ps h
    simp only [loopEnv] at h
    split at h
    · rename_i hc
      injection h with h
      refine ⟨[p ++ bytes! "x/"], h.symm, ?_⟩
      intro t ht
      rw [List.mem_singleton.1 ht]
      refine ⟨fun h0 => (List.mem_append.1 h0).elim hc.2.1 (by decide), ?_⟩
      rw [List.length_append]
      exact Nat.lt_trans (Nat.add_lt_add_right hc.2.2 _) (by decide)
    · cases h
  errors := by
    intro p b r h
    simp only [loopEnv] at h
    split at h
    · cases h
    · injection h with h; subst h; decide
  deeper := by
    intro d b ps t h ht _
    simp only [loopEnv] at h
    split at h
    · injection h with h
      subst h
      have : t = pattern d (bytes! "*") ++ bytes! "x/" := List.append_cancel_right (List.mem_singleton.1 ht)
      have hcount : ∀ l : List Byte, slashes (escape l) = slashes l := by
        intro l
        induction l with
        | nil => rfl
        | cons c l ih =>
          unfold slashes escape at *
          rw [List.flatMap_cons, List.count_append, ih, List.count_cons]
          by_cases hc : Special c
          · rw [if_pos hc]
            rcases hc with rfl | rfl | rfl <;> simp [ch]
          · rw [if_neg hc, List.count_singleton]; omega
      rw [this]
      unfold pattern
      have h1 := hcount d
      unfold slashes at *
      rw [List.count_append, List.count_append, List.count_append, h1]
      have h2 : (bytes! "x/").count (ch '/') = 1 := by decide
      omega
    · cases h

example (buf : List Byte) (hb : buf.length = 4096) : ∃ o, main1 (loopEnv buf) none [bytes! "a"] = .ok (o, 0) :=
  (listing_total (loopEnv buf) (loopEnv_ok buf hb) none (fun _ => 0) [bytes! "a"] (by decide)).1

end Ulz.Props
