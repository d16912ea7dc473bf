import Verif.Proofs.Normfs
/-! Helper lemmas for C227: the theorems for the specification's normal form. -/
namespace Ulz.Normfs
open Ulz.Normfs.Spec Ulz.Filelib Ulz.Filelib.Spec
open Ulz.Stringptr.Spec (join)

/-- a path names at most one thing. -/
theorem form_one (fs : Fs) (s : List Byte) (l l' : Place) (h : Names fs s l) (h' : Names fs s l') : l = l' := leads_det h.2 h'.2

/-- without links, whatever a path names, its normal form names as well. -/
theorem form_tree (fs : Fs) (hs : Sound fs) (hl : Linkfree fs) (s x : List Byte) (h : normalize s = some x) (l : Place) (hn : Names fs s l) : Names fs x l := by
  obtain ⟨rest, d, rfl, h2, rfl, h4⟩ := normalize_some h
  rw [names_normal hs.1 h4]
  have e := linkfree_resolve hl hn.2 h2
  subst e
  exact leads_self hs hl _ (leads_exists hs hn.2 (by rw [hs.1]; simp))

/-- with links, so it is for every path without `..`; and then the normal form names nothing more, except a file whose path ends
    in `/` or `/.`, which the path does not name. -/
theorem form_nodots (fs : Fs) (hs : Sound fs) (s x : List Byte) (h : normalize s = some x) (hd : bytes! ".." ∉ components s) (l : Place) :
    Names fs s l ↔ Names fs x l ∧ (fs l = some .dir ∨ ¬ (bytes! "/" <:+ s ∨ bytes! "/." <:+ s)) := by
  obtain ⟨rest, d, e, h2, rfl, h4⟩ := normalize_some h
  have hh : s.head? = some (ch '/') := by rw [e]; rfl
  rw [names_normal hs.1 h4, ← last_stays hh]
  rw [resolve_plain hd, List.nil_append] at h2
  cases h2
  unfold Names
  rw [leads_plain hd]
  simp only [hh, true_and]

/-- a path with a `..` is never safe: in some file system it names one thing and its normal form another. -/
theorem form_dots (s x : List Byte) (h0 : (0 : Byte) ∉ s) (h : normalize s = some x) (hd : bytes! ".." ∈ components s) :
    ∃ fs l l', Sound fs ∧ Names fs s l ∧ Names fs x l' ∧ l ≠ l' := by
  obtain ⟨rest, d, e, h2, rfl, h4⟩ := normalize_some h
  have hh : s.head? = some (ch '/') := by rw [e]; rfl
  obtain ⟨A, R, hc, hA⟩ := List.append_of_mem hd |>.elim fun A hA => hA.elim fun R hR => List.eq_append_cons_of_mem hd
  have hslash := components_no_slash s
  have hzero := zero_components h0
  have hPn : ∀ n ∈ plain A, Name n := by
    intro n hn
    unfold plain at hn
    rw [List.mem_filter] at hn
    have h5 : n ∈ components s := by rw [hc]; simp [hn.1]
    have h6 := hn.2
    simp only [decide_eq_true_eq] at h6
    exact ⟨h6.1, h6.2, fun e => hA (e ▸ hn.1), hslash n h5, hzero n h5⟩
  have hP : plain A ≠ [] := by
    intro hP
    rw [hc, resolve_append, resolve_plain hA, hP] at h2
    rw [show (bytes! ".." : List Byte) = [ch '.', ch '.'] from rfl] at h2
    simp [resolve_up] at h2
  obtain ⟨z, hz, hzc⟩ := exists_fresh (components s)
  have hzP : z ∉ plain A := fun hh => hzc (by rw [hc]; simp [(List.mem_filter.1 hh).1])
  have hzR : z ∉ R := fun hh => hzc (by rw [hc]; simp [hh])
  have hR : ∀ c ∈ R, ch '/' ∉ c ∧ (0 : Byte) ∉ c := fun c hh => by
    have : c ∈ components s := by rw [hc]; simp [hh]
    exact ⟨hslash c this, hzero c this⟩
  have hzd : z ∉ d := by
    intro hh
    rcases resolve_mem h2 z hh with h | h
    · cases h
    · exact hzc h
  have hdn : ∀ n ∈ d, Name n := by
    intro n hn
    have h5 : n ∈ components s := by
      rcases resolve_mem h2 n hn with h | h
      · cases h
      · exact h
    have h6 := (resolve_wf hslash (by simp) h2) n hn
    exact ⟨h6.1, h6.2.1, h6.2.2.1, hslash n h5, hzero n h5⟩
  have hS : Sound (world (plain A) (deep z (R.length + 2))) := world_sound hP
  have hT : world (plain A) (deep z (R.length + 2)) (List.replicate (R.length + 2) z) = some .dir := by
    rw [world_dir]
    refine ⟨?_, fun m hm => by rw [List.eq_of_mem_replicate hm]; exact hz⟩
    intro hh
    cases hp : plain A with
    | nil => exact hP hp
    | cons p ps =>
      rw [hp] at hh hzP
      exact hzP (by rw [← List.eq_of_mem_replicate (hh.subset List.mem_cons_self)]; exact List.mem_cons_self)
  have hpre : Leads (world (plain A) (deep z (R.length + 2))) [] A (List.replicate (R.length + 2) z) :=
    (leads_plain hA).2 ⟨world_pre hP hzP hz hPn (plain A) [] rfl hP, .inl hT⟩
  obtain ⟨l, hl, _, hl1, hl2⟩ := world_low (t := deep z (R.length + 2)) hP hzP R (List.replicate (R.length + 1) z) hR hzR rfl
    (fun m hm => by rw [List.eq_of_mem_replicate hm]; exact hz) (by rw [List.count_replicate_self]; omega)
  rw [List.count_replicate_self] at hl2
  obtain ⟨l', hl', hc'⟩ := world_any (k := R.length + 2) hP hzP hz hPn d [] hdn hzd hS.1 (.inl rfl)
  refine ⟨_, l, l', hS, ⟨hh, ?_⟩, (names_normal hS.1 h4).2 hl', ?_⟩
  · rw [hc]
    refine leads_concat hpre (.up hT ?_)
    rw [show (List.replicate (R.length + 2) z).dropLast = List.replicate (R.length + 1) z by
      rw [List.replicate_succ', List.dropLast_concat]]
    exact hl
  · rintro rfl
    omega

/-- without links the normal form may still name something where the path does not: a name that does not exist can be left by `..`. -/
theorem form_missing (fs : Fs) (hs : Sound fs) (n x : List Byte) (hn : Name n) (hx : normalize x = some x) (hm : fs [n] = none) :
    normalize (ch '/' :: n ++ bytes! "/.." ++ x) = some x ∧ ∀ l, ¬ Names fs (ch '/' :: n ++ bytes! "/.." ++ x) l := by
  obtain ⟨rest, d, e, h2, hd, h4⟩ := normalize_some hx
  have hc : components (n ++ bytes! "/.." ++ x) = n :: bytes! ".." :: components rest := by
    rw [e, show n ++ bytes! "/.." ++ ch '/' :: rest = n ++ ch '/' :: (bytes! ".." ++ ch '/' :: rest) by rw [List.append_assoc]; rfl]
    rw [components_text_slash hn.2.2.2.1, components_text_slash (by decide)]
  constructor
  · show normalize (ch '/' :: (n ++ bytes! "/.." ++ x)) = _
    unfold normalize
    dsimp only
    rw [if_pos rfl, hc, resolve_push hn.1 hn.2.1 hn.2.2.1, show (bytes! ".." : List Byte) = [ch '.', ch '.'] from rfl, resolve_up, if_neg (by simp)]
    rw [e, components_slash, resolve_nil] at h2
    rw [show ([] ++ [n] : Place).dropLast = [] from rfl, h2, Option.map_some, ← hd]
  · rintro l ⟨_, h⟩
    rw [show ch '/' :: n ++ bytes! "/.." ++ x = ch '/' :: (n ++ bytes! "/.." ++ x) from rfl, components_slash, hc] at h
    cases h with
    | stay _ _ h =>
      cases h with
      | stay _ h _ => rcases h with h | h; exact hn.1 h; exact hn.2.1 h
      | up => exact hn.2.2.1 rfl
      | down _ _ _ _ h _ => rw [List.nil_append, hm] at h; simp at h
      | link _ _ _ _ h _ => rw [List.nil_append, hm] at h; cases h
    | down _ h => exact h rfl
    | link _ h => exact h rfl

/-- an absolute path that is refused, because it climbs above the root, names something all the same (the root is its own parent). -/
theorem form_refused (s : List Byte) (h0 : (0 : Byte) ∉ s) (ha : s.head? = some (ch '/')) (_h : normalize s = none) : ∃ fs l, Sound fs ∧ Linkfree fs ∧ Names fs s l := by
  obtain ⟨l, hl⟩ := everything_leads (components s) [] (fun c hc => ⟨components_no_slash s c hc, zero_components h0 c hc⟩) (by simp)
  exact ⟨everything, l, everything_sound, everything_linkfree, ha, hl⟩

end Ulz.Normfs
