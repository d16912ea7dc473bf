import Verif.Proofs.Normfs2
import Verif.Spec.Confine
/-! Helper lemmas for C228. -/
namespace Ulz.Confine
open Ulz.Confine.Spec Ulz.Normfs Ulz.Normfs.Spec Ulz.Filelib Ulz.Filelib.Spec
open Ulz.Stringptr.Spec (join)

theorem join_cons' {sep x : List Byte} {xs : List (List Byte)} (h : xs ≠ []) : join sep (x :: xs) = x ++ sep ++ join sep xs := by
  cases xs with
  | nil => exact absurd rfl h
  | cons y ys => rfl

theorem join_app {d e : List (List Byte)} (hd : d ≠ []) (he : e ≠ []) : join [ch '/'] (d ++ e) = join [ch '/'] d ++ ch '/' :: join [ch '/'] e := by
  induction d with
  | nil => exact absurd rfl hd
  | cons a d ih =>
    by_cases h : d = []
    · subst h
      rw [List.cons_append, List.nil_append, join_cons' he]
      simp [join]
    · rw [List.cons_append, join_cons' (by simp [h]), ih h, join_cons' h]
      simp

/-- Away from the link, places are reached by their names. -/
theorem world_away {P : Place} {t : List Byte} (hP : P ≠ []) : ∀ (d : Place), ¬ P <+: d → (∀ n ∈ d, Name n) → Leads (world P t) [] d d := by
  intro d
  induction d using List.reverseRecOn with
  | nil => exact fun _ _ => .done
  | append_singleton d n ih =>
    intro h hn
    have h1 : ¬ P <+: d := fun hh => h (hh.trans (List.prefix_append _ _))
    have hN := hn n (by simp)
    refine leads_concat (ih h1 fun m hm => hn m (by simp [hm])) (.down (world_dir.2 ⟨h1, fun m hm => hn m (by simp [hm])⟩) hN.1 hN.2.1 hN.2.2.1 (.inl (world_dir.2 ⟨h, hn⟩)) .done)

theorem normal_length {d : Place} (hd : ∀ c ∈ d, c ≠ []) : (ch '/' :: join [ch '/'] d).length = 1 ↔ d = [] := by
  constructor
  · intro h
    match d, h, hd with
    | [], _, _ => rfl
    | [a], h, hd =>
      simp [join] at h
      exact absurd h (hd a (by simp))
    | a :: b :: r, h, hd =>
      rw [join_cons' (by simp)] at h
      simp at h
  · rintro rfl
    rfl

theorem normalize_names {s x : List Byte} (h0 : (0 : Byte) ∉ s) (h : normalize s = some x) : ∃ d, resolve [] (components s) = some d ∧ x = ch '/' :: join [ch '/'] d ∧ ∀ n ∈ d, Name n := by
  obtain ⟨rest, d, e, h2, rfl, h4⟩ := normalize_some h
  refine ⟨d, h2, rfl, ?_⟩
  intro n hn
  have h5 : n ∈ components s := by
    rcases resolve_mem h2 n hn with h | h
    · cases h
    · exact h
  have h6 := (resolve_wf (components_no_slash s) (by simp) h2) n hn
  exact ⟨h6.1, h6.2.1, h6.2.2.1, h6.2.2.2, zero_components h0 n h5⟩

/-- The texts of the normal forms, and the places. -/
theorem prefix_text {d e : Place} : (if (ch '/' :: join [ch '/'] d).length = 1 then [] else ch '/' :: join [ch '/'] d) <+: ch '/' :: join [ch '/'] (d ++ e) := by
  split
  · exact List.nil_prefix
  · by_cases he : e = []
    · subst he; simp
    · by_cases hd : d = []
      · subst hd
        exact ⟨join [ch '/'] e, rfl⟩
      · rw [join_app hd he]
        exact ⟨ch '/' :: join [ch '/'] e, by simp⟩

theorem up_all {fs : Fs} (hs : Sound fs) : ∀ (k : Nat) (a : Place), fs a = some .dir → a.length ≤ k → Leads fs a (List.replicate k (bytes! "..")) [] := by
  intro k
  induction k with
  | zero =>
    intro a _ h
    have : a = [] := List.length_eq_zero_iff.1 (by omega)
    subst this
    exact .done
  | succ k ih =>
    intro a ha h
    rw [List.replicate_succ]
    refine .up ha (ih a.dropLast ?_ (by rw [List.length_dropLast]; omega))
    rcases List.eq_nil_or_concat a with rfl | ⟨b, c, rfl⟩
    · exact ha
    · rw [List.concat_eq_append] at ha ⊢
      rw [List.dropLast_concat]
      exact (hs.2 b c (by rw [ha]; simp)).1

theorem components_ups (t r : List Byte) : ∀ k, components (t ++ ups k ++ ch '/' :: r) = components t ++ List.replicate k (bytes! "..") ++ components r := by
  intro k
  induction k generalizing t with
  | zero => simp [ups, components_last]
  | succ k ih =>
    have e : t ++ ups (k + 1) ++ ch '/' :: r = (t ++ bytes! "/..") ++ ups k ++ ch '/' :: r := by
      simp [ups, List.replicate_succ]
    rw [e, ih, show t ++ bytes! "/.." = t ++ ch '/' :: bytes! ".." from rfl, components_last, List.replicate_succ]
    rw [components_text (c := bytes! "..") (by decide)]
    simp

theorem resolve_ups : ∀ (k : Nat) (a : Place) (R : List (List Byte)), a.length < k → resolve a (List.replicate k (bytes! "..") ++ R) = none := by
  intro k
  induction k with
  | zero => intro a R h; omega
  | succ k ih =>
    intro a R h
    rw [List.replicate_succ, List.cons_append, show (bytes! ".." : List Byte) = [ch '.', ch '.'] from rfl, resolve_up]
    split
    · rfl
    · rename_i ha
      refine ih _ R ?_
      have : 0 < a.length := List.length_pos_iff.2 ha
      rw [List.length_dropLast]
      omega

end Ulz.Confine
