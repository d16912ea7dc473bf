import Verif.Proofs.Confine
import Verif.Spec.Confine
import Verif.Props.Normfs
/-! C228: keeping requests within a directory with getpathdiff. -/
namespace Ulz.Props
open Ulz.Normfs Ulz.Normfs.Spec Ulz.Filelib Ulz.Filelib.Spec Ulz.Confine Ulz.Confine.Spec
open Ulz.Stringptr (SP)
open Ulz.Stringptr.Spec (join Holds)

/-- C228: without links, the test is right for all paths that can be normalized: it accepts exactly what lies below the directory
    (and, if the directory is the root, the root). -/
theorem confine_exact (fs : Fs) (hs : Sound fs) (hl : Linkfree fs) (st1 st2 : Nat → Byte) (s1 s2 j1 j2 W : List Byte) (h1 : (0 : Byte) ∉ s1) (h2 : (0 : Byte) ∉ s2)
    (e1 : s1.length < 4096) (e2 : s2.length < 4096) (hW : s2.length < W.length) (n1 : normalize s1 ≠ none) (n2 : normalize s2 ≠ none)
    (l1 l2 : Place) (hn1 : Names fs s1 l1) (hn2 : Names fs s2 l2) :
    ∃ p1 p2 W' r, getpathdiff st1 st2 ⟨s1 ++ 0 :: j1, s1.length⟩ ⟨s2 ++ 0 :: j2, s2.length⟩ W = .ok (p1, p2, W', r) ∧
      (Accepted r W' ↔ l1 <+: l2 ∧ (l1 ≠ l2 ∨ l1 = [])) := by
  obtain ⟨A, hA⟩ := Option.ne_none_iff_exists'.1 n1
  obtain ⟨B, hB⟩ := Option.ne_none_iff_exists'.1 n2
  obtain ⟨d1, r1, rfl, m1⟩ := normalize_names h1 hA
  obtain ⟨d2, r2, rfl, m2⟩ := normalize_names h2 hB
  cases linkfree_resolve hl hn1.2 r1
  cases linkfree_resolve hl hn2.2 r2
  have hBl := normalize_shorter s2 _ h2 hB
  obtain ⟨p1, p2, W', r, hg, _, _, c1, c2, c3, c4⟩ := getpathdiff_correct st1 st2 s1 s2 j1 j2 W h1 h2 e1 e2 (ch '/' :: join [ch '/'] l1)
    (ch '/' :: join [ch '/'] l2) _ (by rw [hA]; rfl) (by rw [hB]; rfl) rfl (by omega)
  refine ⟨p1, p2, W', r, hg, ?_⟩
  generalize hA' : (if (ch '/' :: join [ch '/'] l1).length = 1 then [] else ch '/' :: join [ch '/'] l1) = A' at c1 c2 c3 c4
  have k1 : ∀ c ∈ l1, c ≠ [] ∧ ch '/' ∉ c := fun c hc => ⟨(m1 c hc).1, (m1 c hc).2.2.2.1⟩
  have k2 : ∀ c ∈ l2, c ≠ [] ∧ ch '/' ∉ c := fun c hc => ⟨(m2 c hc).1, (m2 c hc).2.2.2.1⟩
  have hroot := normal_length (d := l1) fun c hc => (k1 c hc).1
  constructor
  · rintro ⟨hr, hw⟩
    rcases Nat.lt_trichotomy (ch '/' :: join [ch '/'] l2).length A'.length with h | h | h
    · rw [(c1 h).1] at hr; exact absurd hr (by decide)
    · rw [(c2 h).1] at hr; exact absurd hr (by decide)
    · by_cases hp : A' <+: ch '/' :: join [ch '/'] l2
      · by_cases hd : l2 = []
        · subst hd
          have : l1 = [] := by
            by_cases hh : l1 = []
            · exact hh
            · rw [if_neg (fun e => hh (hroot.1 e))] at hA'
              rw [← hA'] at h
              simp [join] at h
          subst this
          simp
        · obtain ⟨_, hW'⟩ := c3 h hp
          have : ((ch '/' :: join [ch '/'] l2).drop A'.length)[0]? = some (ch '/') := by
            rw [hW'] at hw
            rw [List.getElem?_append_left (by rw [List.length_drop]; omega)] at hw
            exact hw
          have hpre := (getpathdiff_starts_with_slash l1 l2 k1 k2 hd _ _ A' rfl rfl hA'.symm h hp).1 this
          refine ⟨hpre, ?_⟩
          by_cases hh : l1 = []
          · exact .inr hh
          · left
            rintro rfl
            rw [if_neg (fun e => hh (hroot.1 e))] at hA'
            rw [← hA'] at h
            exact absurd h (Nat.lt_irrefl _)
      · rw [(c4 h hp).1] at hr; exact absurd hr (by decide)
  · rintro ⟨⟨e, rfl⟩, hne⟩
    have hp : A' <+: ch '/' :: join [ch '/'] (l1 ++ e) := by rw [← hA']; exact prefix_text
    have hlt : A'.length < (ch '/' :: join [ch '/'] (l1 ++ e)).length := by
      by_cases hh : l1 = []
      · rw [if_pos (hroot.2 hh)] at hA'
        rw [← hA']; simp
      · rw [if_neg (fun e => hh (hroot.1 e))] at hA'
        have he : e ≠ [] := by
          rintro rfl
          rcases hne with h | h
          · simp at h
          · exact hh h
        rw [← hA', join_app hh he]
        simp
    obtain ⟨c5, c6⟩ := c3 hlt hp
    refine ⟨by rw [c5]; omega, ?_⟩
    rw [c6, List.getElem?_append_left (by rw [List.length_drop]; omega)]
    by_cases hd : l1 ++ e = []
    · have : l1 = [] := (List.append_eq_nil_iff.1 hd).1
      rw [if_pos (hroot.2 this)] at hA'
      rw [← hA']; rfl
    · exact (getpathdiff_starts_with_slash l1 (l1 ++ e) k1 k2 hd _ _ A' rfl rfl hA'.symm hlt hp).2 (List.prefix_append _ _)

/-- C228: `getpathdiff` does not notice that a path cannot be normalized. Behind every directory but the root, enough `..` make a path that
    is accepted and names whatever one likes: `target` is any normal path of anything that exists. -/
theorem confine_escape (fs : Fs) (hs : Sound fs) (s1 dir target : List Byte) (h1 : (0 : Byte) ∉ s1) (hd : normalize s1 = some dir) (hr : dir ≠ bytes! "/")
    (l1 l2 : Place) (hl1 : Names fs dir l1) (hdir : fs l1 = some .dir) (ht : normalize target = some target) (h0 : (0 : Byte) ∉ target) (hl2 : Names fs target l2)
    (k : Nat) (hk : l1.length ≤ k) (hk2 : (components s1).length ≤ k) (s2 : List Byte) (hs2 : s2 = dir ++ ups k ++ target) (e1 : s1.length < 4096) (e2 : s2.length < 4096)
    (st1 st2 : Nat → Byte) (j1 j2 W : List Byte) (hW : s2.length < W.length) :
    Names fs s2 l2 ∧ ∃ p1 p2 W' r, getpathdiff st1 st2 ⟨s1 ++ 0 :: j1, s1.length⟩ ⟨s2 ++ 0 :: j2, s2.length⟩ W = .ok (p1, p2, W', r) ∧ Accepted r W' := by
  obtain ⟨d1, r1, rfl, m1⟩ := normalize_names h1 hd
  obtain ⟨rest, d2, e, r2, _, _⟩ := normalize_some ht
  have hdne : d1 ≠ [] := by rintro rfl; exact hr rfl
  have hcomp : components (ch '/' :: join [ch '/'] d1) = [] :: d1 := by
    rw [components_slash, components_join (fun c hc => (m1 c hc).2.2.2.1) hdne]
  have hc2 : components s2 = [] :: d1 ++ List.replicate k (bytes! "..") ++ components rest := by
    rw [hs2, e, components_ups, hcomp]
  have hlen1 : d1.length < k := by
    have : ∀ (cs : List (List Byte)) (a d : Place), resolve a cs = some d → d.length ≤ a.length + cs.length := by
      intro cs
      induction cs with
      | nil => intro a d h; simp [resolve] at h; simp [h]
      | cons c cs ih =>
        intro a d h
        rw [resolve] at h
        simp only [List.length_cons]
        split at h
        · have := ih _ _ h; omega
        · split at h
          · split at h
            · cases h
            · have := ih _ _ h
              rw [List.length_dropLast] at this
              omega
          · have := ih _ _ h
            simp at this
            omega
    obtain ⟨rest1, _, e3, _, _, _⟩ := normalize_some hd
    rw [e3, components_slash, resolve_nil] at r1
    have h5 := this _ _ _ r1
    rw [e3, components_slash] at hk2
    simp at h5 hk2
    omega
  constructor
  · refine ⟨by rw [hs2]; rfl, ?_⟩
    rw [hc2]
    have a1 : Leads fs [] ([] :: d1) l1 := by rw [← hcomp]; exact hl1.2
    have a2 := up_all hs k l1 hdir hk
    have a3 : Leads fs [] (components rest) l2 := by
      have := hl2.2
      rw [e, components_slash] at this
      cases this with
      | stay _ _ h => exact h
      | down _ h => exact absurd rfl h
      | link _ h => exact absurd rfl h
    exact leads_concat (leads_concat a1 a2) a3
  · have h2 : (0 : Byte) ∉ s2 := by
      rw [hs2]
      intro hh
      rcases List.mem_append.1 hh with hh | hh
      · rcases List.mem_append.1 hh with hh | hh
        · exact normalize_zero h1 hd hh
        · simp [ups] at hh
      · exact h0 hh
    have hnone : normalize s2 = none := by
      have hr2 : resolve [] (components s2) = none := by
        rw [hc2, List.cons_append, List.cons_append, resolve_nil, List.append_assoc, resolve_append,
          resolve_id fun c hc => ⟨(m1 c hc).1, (m1 c hc).2.1, (m1 c hc).2.2.1, (m1 c hc).2.2.2.1⟩]
        exact resolve_ups k d1 _ hlen1
      cases hn : normalize s2 with
      | none => rfl
      | some y =>
        obtain ⟨_, _, _, hh, _⟩ := normalize_some hn
        rw [hr2] at hh
        cases hh
    have hne1 : (ch '/' :: join [ch '/'] d1).length ≠ 1 := fun hh => hdne ((normal_length fun c hc => (m1 c hc).1).1 hh)
    obtain ⟨p1, p2, W', r, hg, _, _, c1, c2, c3, c4⟩ := getpathdiff_correct st1 st2 s1 s2 j1 j2 W h1 h2 e1 e2 (ch '/' :: join [ch '/'] d1)
      s2 (ch '/' :: join [ch '/'] d1) (by rw [hd]; rfl) (by rw [hnone]; rfl) (by rw [if_neg hne1]) (by omega)
    have hk0 : 0 < k := by omega
    obtain ⟨k, rfl⟩ : ∃ j, k = j + 1 := ⟨k - 1, by omega⟩
    have hs3 : s2 = (ch '/' :: join [ch '/'] d1) ++ ch '/' :: (bytes! ".." ++ ups k ++ target) := by
      rw [hs2]; simp [ups, List.replicate_succ]; rfl
    have hlt : s2.length > (ch '/' :: join [ch '/'] d1).length := by rw [hs3, List.length_append, List.length_cons (a := ch '/') (as := bytes! ".." ++ _ ++ _)]; omega
    obtain ⟨c5, c6⟩ := c3 hlt ⟨_, hs3.symm⟩
    refine ⟨p1, p2, W', r, hg, by rw [c5]; omega, ?_⟩
    rw [c6, List.getElem?_append_left (by rw [List.length_drop]; omega), hs3, List.drop_left]
    rfl

/-- C228: with links, no path below a directory is safe, even without `..`: in some file system it names something elsewhere. -/
theorem confine_links (s1 s2 x1 x2 : List Byte) (h1 : (0 : Byte) ∉ s1) (h2 : (0 : Byte) ∉ s2) (n1 : normalize s1 = some x1) (n2 : normalize s2 = some x2)
    (hr : x1 ≠ bytes! "/") (hx : x1 ++ bytes! "/" <+: x2) (dots1 : bytes! ".." ∉ components s1) (dots2 : bytes! ".." ∉ components s2) :
    ∃ fs l1 l2, Sound fs ∧ Names fs s1 l1 ∧ Names fs s2 l2 ∧ ¬ l1 <+: l2 := by
  obtain ⟨d1, r1, rfl, m1⟩ := normalize_names h1 n1
  obtain ⟨d2, r2, rfl, m2⟩ := normalize_names h2 n2
  have hd1 : d1 ≠ [] := by rintro rfl; exact hr rfl
  have hd2 : d2 ≠ [] := by
    rintro rfl
    have := hx.length_le
    simp [join] at this
  obtain ⟨R, hR⟩ := hx
  have hpre : ∃ e, d2 = d1 ++ e ∧ e ≠ [] := by
    have h5 : components (ch '/' :: join [ch '/'] d2) = [] :: d2 := by rw [components_slash, components_join (fun c hc => (m2 c hc).2.2.2.1) hd2]
    rw [← hR, show ch '/' :: join [ch '/'] d1 ++ bytes! "/" ++ R = (ch '/' :: join [ch '/'] d1) ++ ch '/' :: R by simp; rfl, components_last,
      components_slash, components_join (fun c hc => (m1 c hc).2.2.2.1) hd1] at h5
    simp at h5
    exact ⟨components R, h5.symm, components_ne_nil R⟩
  obtain ⟨e, rfl, he⟩ := hpre
  obtain ⟨n, e, rfl⟩ : ∃ n e', e = n :: e' := by
    cases e with
    | nil => exact absurd rfl he
    | cons n e => exact ⟨n, e, rfl⟩
  obtain ⟨z, hz, hzc⟩ := exists_fresh (d1 ++ n :: e)
  have hP : d1 ++ [n] ≠ [] := by simp
  have hPn : ∀ m ∈ d1 ++ [n], Name m := by
    intro m hm
    exact m2 m (by simp at hm ⊢; tauto)
  have hzP : z ∉ d1 ++ [n] := by simp at hzc ⊢; tauto
  have hze : z ∉ e := by simp at hzc; tauto
  have hS : Sound (world (d1 ++ [n]) (deep z (e.length + 1))) := world_sound hP
  obtain ⟨l, hl, hh, _, _⟩ := world_low (t := deep z (e.length + 1)) hP hzP e (List.replicate (e.length + 1) z)
    (fun c hc => by have := m2 c (by simp [hc]); exact ⟨this.2.2.2.1, this.2.2.2.2⟩) hze rfl
    (fun m hm => by rw [List.eq_of_mem_replicate hm]; exact hz) (by rw [List.count_replicate_self]; omega)
  have hnp : ¬ (d1 ++ [n]) <+: d1 := fun hh => by have := hh.length_le; simp at this; omega
  have hL1 : Leads (world (d1 ++ [n]) (deep z (e.length + 1))) [] d1 d1 := world_away hP d1 hnp m1
  have hL2 : Leads (world (d1 ++ [n]) (deep z (e.length + 1))) [] (d1 ++ n :: e) l := by
    rw [show d1 ++ n :: e = (d1 ++ [n]) ++ e by simp]
    exact leads_concat (world_pre hP hzP hz hPn (d1 ++ [n]) [] rfl hP) hl
  have hdirl : world (d1 ++ [n]) (deep z (e.length + 1)) l = some .dir := by
    have hex := leads_exists hS hL2 (by rw [hS.1]; simp)
    rw [world_dir]
    refine ⟨?_, sound_names hS l hex⟩
    rintro ⟨q, rfl⟩
    cases d1 with
    | nil => exact hd1 rfl
    | cons a d1 => simp at hh; subst hh; simp at hzc
  refine ⟨_, d1, l, hS, (form_nodots _ hS s1 _ n1 dots1 d1).2 ⟨(names_normal hS.1 fun c hc => (m1 c hc).2.2.2.1).2 hL1, .inl (world_dir.2 ⟨hnp, m1⟩)⟩,
    (form_nodots _ hS s2 _ n2 dots2 l).2 ⟨(names_normal hS.1 fun c hc => (m2 c hc).2.2.2.1).2 hL2, .inl hdirl⟩, ?_⟩
  rintro ⟨q, rfl⟩
  cases d1 with
  | nil => exact hd1 rfl
  | cons a d1 => simp at hh; subst hh; simp at hzc

/- Instances: the paths of `confine_exact` and `confine_links`, and a request that escapes. -/
example : normalize (bytes! "/d/") = some (bytes! "/d") ∧ normalize (bytes! "/d/./x/../f") = some (bytes! "/d/f") ∧ bytes! "/d" ++ bytes! "/" <+: bytes! "/d/f" := by decide
example : Names normfsDemo (bytes! "/d") [bytes! "d"] ∧ normfsDemo [bytes! "d"] = some .dir ∧ (components (bytes! "/d")).length ≤ 2 ∧
    bytes! "/d" ++ ups 2 ++ bytes! "/d/f" = bytes! "/d/../../d/f" :=
  ⟨⟨rfl, .stay (by decide) (.inl rfl) (.down (by decide) (by decide) (by decide) (by decide) (by decide) .done)⟩, by decide, by decide, by decide⟩

end Ulz.Props
