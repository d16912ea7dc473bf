import Verif.Proofs.Filelib
import Verif.Spec.Normfs
import Mathlib.Tactic.Tauto
import Mathlib.Data.List.Induction
/-! Helper lemmas for C227. -/
namespace Ulz.Normfs
open Ulz.Normfs.Spec Ulz.Filelib Ulz.Filelib.Spec
open Ulz.Stringptr.Spec (join)

theorem leads_det {fs : Fs} {a : Place} {cs : List (List Byte)} {l l' : Place} (h : Leads fs a cs l) (h' : Leads fs a cs l') : l = l' := by
  induction h generalizing l' with
  | done => cases h'; rfl
  | stay h1 h2 _ ih =>
    cases h' with
    | stay _ _ h => exact ih h
    | up => simp at h2
    | down _ a b => rcases h2 with h2 | h2 <;> contradiction
    | link _ a b => rcases h2 with h2 | h2 <;> contradiction
  | up h1 _ ih =>
    cases h' with
    | stay _ h2 h => simp at h2
    | up _ h => exact ih h
    | down _ a b c => exact absurd rfl c
    | link _ a b c => exact absurd rfl c
  | down h1 h2 h3 h4 h5 _ ih =>
    cases h' with
    | stay _ h _ => rcases h with h | h <;> contradiction
    | up => exact absurd rfl h4
    | down _ _ _ _ _ h => exact ih h
    | link _ _ _ _ h => rw [h] at h5; simp at h5
  | link h1 h2 h3 h4 h5 h6 _ _ ih1 ih2 =>
    cases h' with
    | stay _ h _ => rcases h with h | h <;> contradiction
    | up => exact absurd rfl h4
    | down _ _ _ _ h => rw [h5] at h; simp at h
    | link _ _ _ _ h _ ha hb =>
      rw [h5] at h
      cases h
      cases ih1 ha
      exact ih2 hb

theorem sound_dropLast {fs : Fs} (hs : Sound fs) {a : Place} (h : fs a ≠ none) : fs a.dropLast ≠ none := by
  rcases List.eq_nil_or_concat a with rfl | ⟨b, c, rfl⟩
  · simpa using h
  · rw [List.concat_eq_append] at h ⊢
    rw [List.dropLast_concat, (hs.2 b c h).1]
    simp

theorem leads_exists {fs : Fs} (hs : Sound fs) {a : Place} {cs : List (List Byte)} {l : Place} (h : Leads fs a cs l) (ha : fs a ≠ none) : fs l ≠ none := by
  induction h with
  | done => exact ha
  | stay h1 h2 _ ih => exact ih ha
  | up h1 _ ih => exact ih (sound_dropLast hs ha)
  | down h1 h2 h3 h4 h5 _ ih => exact ih (by rcases h5 with h | h <;> simp [h])
  | link h1 h2 h3 h4 h5 h6 _ _ ih1 ih2 =>
    refine ih2 (ih1 ?_)
    unfold origin
    split
    · rw [hs.1]; simp
    · exact ha

theorem linkfree_resolve {fs : Fs} (hl : Linkfree fs) {a : Place} {cs : List (List Byte)} {l d : Place} (h : Leads fs a cs l)
    (hr : resolve a cs = some d) : l = d := by
  induction h with
  | done => simpa [resolve] using hr
  | stay h1 h2 _ ih => rw [resolve, if_pos h2] at hr; exact ih hr
  | up h1 _ ih =>
    rw [show (bytes! ".." : List Byte) = [ch '.', ch '.'] from rfl, resolve_up] at hr
    split at hr
    · cases hr
    · exact ih hr
  | down h1 h2 h3 h4 h5 _ ih => rw [resolve_push h2 h3 h4] at hr; exact ih hr
  | link h1 h2 h3 h4 h5 => exact absurd h5 (hl _ _)

/-- Names of places are names. -/
theorem sound_names {fs : Fs} (hs : Sound fs) : ∀ (l : Place), fs l ≠ none → ∀ n ∈ l, Name n := by
  intro l
  induction l using List.reverseRecOn with
  | nil => simp
  | append_singleton l n ih =>
    intro h m hm
    rcases List.mem_append.1 hm with hm | hm
    · exact ih (by rw [(hs.2 l n h).1]; simp) m hm
    · simp at hm; subst hm; exact (hs.2 l m h).2

theorem leads_concat {fs : Fs} {a : Place} {cs ds : List (List Byte)} {b l : Place} (h : Leads fs a cs b) (h' : Leads fs b ds l) : Leads fs a (cs ++ ds) l := by
  induction h with
  | done => exact h'
  | stay h1 h2 _ ih => exact .stay h1 h2 (ih h')
  | up h1 _ ih => exact .up h1 (ih h')
  | down h1 h2 h3 h4 h5 _ ih => exact .down h1 h2 h3 h4 h5 (ih h')
  | link h1 h2 h3 h4 h5 h6 h7 _ _ ih => exact .link h1 h2 h3 h4 h5 h6 h7 (ih h')

/-- A place without links is reached by its names. -/
theorem leads_self {fs : Fs} (hs : Sound fs) (hl : Linkfree fs) : ∀ (l : Place), fs l ≠ none → Leads fs [] l l := by
  intro l
  induction l using List.reverseRecOn with
  | nil => exact fun _ => .done
  | append_singleton l n ih =>
    intro h
    have h1 := hs.2 l n h
    refine leads_concat (ih (by rw [h1.1]; simp)) (.down h1.1 h1.2.1 h1.2.2.1 h1.2.2.2.1 ?_ .done)
    cases hf : fs (l ++ [n]) with
    | none => exact absurd hf h
    | some x =>
      cases x with
      | dir => exact .inl rfl
      | file => exact .inr rfl
      | link t => exact absurd hf (hl _ _)

/-- The components of a normal form. -/
theorem names_normal {fs : Fs} (h0 : fs [] = some .dir) {d l : Place} (hd : ∀ c ∈ d, ch '/' ∉ c) :
    Names fs (ch '/' :: join [ch '/'] d) l ↔ Leads fs [] d l := by
  unfold Names
  rw [components_slash]
  simp only [List.head?_cons, true_and]
  have e : ∀ ds, Leads fs [] ([] :: ds) l ↔ Leads fs [] ds l := by
    intro ds
    refine ⟨fun h => ?_, fun h => .stay h0 (.inl rfl) h⟩
    cases h with
    | stay _ _ h => exact h
    | down _ h => exact absurd rfl h
    | link _ h => exact absurd rfl h
  rw [e]
  by_cases hn : d = []
  · subst hn
    show Leads fs [] ([[]]) l ↔ _
    exact e []
  · rw [components_join hd hn]

theorem normalize_some {s x : List Byte} (h : normalize s = some x) : ∃ rest d, s = ch '/' :: rest ∧ resolve [] (components s) = some d ∧
    x = ch '/' :: join [ch '/'] d ∧ (∀ c ∈ d, ch '/' ∉ c) := by
  unfold normalize at h
  match s, h with
  | c :: rest, h =>
    dsimp only at h
    split at h
    · rename_i hc
      subst hc
      cases hr : resolve [] (components rest) with
      | none => simp [hr] at h
      | some d =>
        simp [hr] at h
        refine ⟨rest, d, rfl, ?_, h.symm, ?_⟩
        · rw [components_slash, resolve_nil, hr]
        · intro c hc
          rcases resolve_mem hr c hc with h | h
          · cases h
          · exact components_no_slash _ _ h
    · cases h

/-- Names of the path, without those that stay. -/
def plain (cs : List (List Byte)) : List (List Byte) := cs.filter fun c => decide (c ≠ [] ∧ c ≠ bytes! ".")

theorem resolve_plain : ∀ {cs : List (List Byte)} {a : Place}, bytes! ".." ∉ cs → resolve a cs = some (a ++ plain cs) := by
  intro cs
  induction cs with
  | nil => intro a _; simp [resolve, plain]
  | cons c cs ih =>
    intro a h
    have h2 : bytes! ".." ∉ cs := fun hh => h (List.mem_cons_of_mem _ hh)
    by_cases hc : c = [] ∨ c = bytes! "."
    · rw [resolve, if_pos hc, ih h2]
      congr 2
      unfold plain
      rw [List.filter_cons_of_neg]
      simp only [decide_eq_true_eq]
      tauto
    · have h3 : c ≠ [] := fun e => hc (.inl e)
      have h4 : c ≠ bytes! "." := fun e => hc (.inr e)
      have h5 : c ≠ bytes! ".." := fun e => h (e ▸ List.mem_cons_self)
      rw [resolve_push h3 h4 h5, ih h2]
      unfold plain
      rw [List.filter_cons_of_pos (by simpa using ⟨h3, h4⟩)]
      simp

theorem leads_plain {fs : Fs} : ∀ {cs : List (List Byte)} {a l : Place}, bytes! ".." ∉ cs →
    (Leads fs a cs l ↔ Leads fs a (plain cs) l ∧ (fs l = some .dir ∨ ∀ c, cs.getLast? = some c → c ≠ [] ∧ c ≠ bytes! ".")) := by
  intro cs
  induction cs with
  | nil => intro a l _; simp [plain]
  | cons c cs ih =>
    intro a l h
    have h2 : bytes! ".." ∉ cs := fun hh => h (List.mem_cons_of_mem _ hh)
    have hlast : ∀ d, (c :: cs).getLast? = some d ↔ (cs = [] ∧ d = c) ∨ (cs ≠ [] ∧ cs.getLast? = some d) := by
      intro d
      cases cs with
      | nil => simp [eq_comm]
      | cons b bs => simp [List.getLast?_cons_cons]
    by_cases hc : c = [] ∨ c = bytes! "."
    · have e : plain (c :: cs) = plain cs := by
        unfold plain
        rw [List.filter_cons_of_neg]
        simp only [decide_eq_true_eq]
        tauto
      rw [e]
      constructor
      · intro hh
        have ⟨h5, h6⟩ : fs a = some .dir ∧ Leads fs a cs l := by
          cases hh with
          | stay h1 _ h => exact ⟨h1, h⟩
          | up => exact absurd List.mem_cons_self h
          | down _ h3 h4 => rcases hc with hc | hc <;> contradiction
          | link _ h3 h4 => rcases hc with hc | hc <;> contradiction
        rw [ih h2] at h6
        refine ⟨h6.1, ?_⟩
        rcases h6.2 with h7 | h7
        · exact .inl h7
        · by_cases hn : cs = []
          · subst hn
            have : a = l := leads_det .done (by simpa [plain] using h6.1)
            subst this
            exact .inl h5
          · right
            intro d hd
            rw [hlast] at hd
            rcases hd with hd | hd
            · exact absurd hd.1 hn
            · exact h7 d hd.2
      · rintro ⟨h5, h6⟩
        have h8 : fs a = some .dir := by
          cases hp : plain cs with
          | nil =>
            rw [hp] at h5
            have : a = l := leads_det .done h5
            subst this
            rcases h6 with h6 | h6
            · exact h6
            · exfalso
              cases hg : (c :: cs).getLast? with
              | none => simp at hg
              | some d =>
                have h7 := h6 d hg
                rw [hlast] at hg
                rcases hg with hg | hg
                · rw [hg.2] at h7; rcases hc with hc | hc <;> simp [hc] at h7
                · have : d ∈ plain cs := by
                    unfold plain
                    rw [List.mem_filter]
                    exact ⟨List.mem_of_getLast? hg.2, by simpa using h7⟩
                  rw [hp] at this
                  cases this
          | cons n ns =>
            rw [hp] at h5
            cases h5 <;> assumption
        refine .stay h8 hc ((ih h2).2 ⟨h5, ?_⟩)
        rcases h6 with h6 | h6
        · exact .inl h6
        · by_cases hn : cs = []
          · subst hn
            exact .inr (by simp)
          · exact .inr fun d hd => h6 d ((hlast d).2 (.inr ⟨hn, hd⟩))
    · have h3 : c ≠ [] := fun e => hc (.inl e)
      have h4 : c ≠ bytes! "." := fun e => hc (.inr e)
      have h5 : c ≠ bytes! ".." := fun e => h (e ▸ List.mem_cons_self)
      have e : plain (c :: cs) = c :: plain cs := by
        unfold plain
        rw [List.filter_cons_of_pos (by simpa using ⟨h3, h4⟩)]
      rw [e]
      have hl2 : (∀ d, (c :: cs).getLast? = some d → d ≠ [] ∧ d ≠ bytes! ".") ↔ ∀ d, cs.getLast? = some d → d ≠ [] ∧ d ≠ bytes! "." := by
        by_cases hn : cs = []
        · subst hn; simp; exact ⟨h3, h4⟩
        · constructor
          · exact fun hh d hd => hh d ((hlast d).2 (.inr ⟨hn, hd⟩))
          · intro hh d hd
            rcases (hlast d).1 hd with hd | hd
            · exact absurd hd.1 hn
            · exact hh d hd.2
      rw [hl2]
      constructor
      · intro hh
        cases hh with
        | stay _ h _ => exact absurd h hc
        | up => exact absurd rfl h5
        | down a1 a2 a3 a4 a5 a6 => exact ⟨.down a1 a2 a3 a4 a5 ((ih h2).1 a6).1, ((ih h2).1 a6).2⟩
        | link a1 a2 a3 a4 a5 a6 a7 a8 => exact ⟨.link a1 a2 a3 a4 a5 a6 a7 ((ih h2).1 a8).1, ((ih h2).1 a8).2⟩
      · rintro ⟨hh, h9⟩
        cases hh with
        | stay _ h _ => exact absurd h hc
        | up => exact absurd rfl h5
        | down a1 a2 a3 a4 a5 a6 => exact .down a1 a2 a3 a4 a5 ((ih h2).2 ⟨a6, h9⟩)
        | link a1 a2 a3 a4 a5 a6 a7 a8 => exact .link a1 a2 a3 a4 a5 a6 a7 ((ih h2).2 ⟨a8, h9⟩)

theorem components_last (t u : List Byte) : components (t ++ ch '/' :: u) = components t ++ components u := by
  induction t with
  | nil => rw [List.nil_append, components_slash]; rfl
  | cons c t ih =>
    by_cases hc : c = ch '/'
    · subst hc
      rw [List.cons_append, components_slash, ih, components_slash]; rfl
    · obtain ⟨h, cs, e⟩ := components_cons t
      rw [List.cons_append, components_char (h := h) (cs := cs ++ components u) hc (by rw [ih, e]; rfl), components_char hc e]
      rfl

/-- The last component stays exactly if the absolute path ends so. -/
theorem last_stays {s : List Byte} (hs : s.head? = some (ch '/')) :
    (∀ c, (components s).getLast? = some c → c ≠ [] ∧ c ≠ bytes! ".") ↔ ¬ (bytes! "/" <:+ s ∨ bytes! "/." <:+ s) := by
  constructor
  · rintro h (⟨t, rfl⟩ | ⟨t, rfl⟩)
    · have := components_last t []
      rw [show t ++ bytes! "/" = t ++ ch '/' :: [] from rfl, this] at h
      exact absurd rfl (h [] (by rw [show components [] = [[]] from rfl]; simp)).1
    · have := components_last t [ch '.']
      rw [show t ++ bytes! "/." = t ++ ch '/' :: [ch '.'] from rfl, this] at h
      exact absurd rfl (h (bytes! ".") (by rw [show components [ch '.'] = [bytes! "."] from rfl]; simp)).2
  · intro h c hc
    obtain ⟨A, hA⟩ : ∃ A, components s = A ++ [c] := List.getLast?_eq_some_iff.1 hc
    have hj := join_components s
    cases s with
    | nil => cases hs
    | cons b r =>
      simp at hs
      subst hs
      have hne : A ≠ [] := by
        rintro rfl
        rw [components_slash, List.nil_append] at hA
        exact components_ne_nil _ (List.cons.inj hA).2
      have e : ch '/' :: r = join [ch '/'] A ++ ch '/' :: c := by
        have h1 := components_last (join [ch '/'] A) c
        rw [components_join (fun d hd => components_no_slash (ch '/' :: r) d (by rw [hA]; simp [hd])) hne,
          components_text (components_no_slash (ch '/' :: r) c (by rw [hA]; simp)), ← hA] at h1
        rw [← join_components (join [ch '/'] A ++ ch '/' :: c), h1, hj]
      refine ⟨?_, ?_⟩
      · rintro rfl
        exact h (.inl ⟨_, e.symm⟩)
      · rintro rfl
        exact h (.inr ⟨_, e.symm⟩)

/-- Everything exists, and at `P` there is a link. -/
noncomputable def world (P : Place) (t : List Byte) : Fs := by
  classical
  exact fun l => if P <+: l then (if l = P ∧ ∀ n ∈ l, Name n then some (.link t) else none)
    else if ∀ n ∈ l, Name n then some .dir else none

theorem world_dir {P a : Place} {t : List Byte} : world P t a = some .dir ↔ ¬ P <+: a ∧ ∀ n ∈ a, Name n := by
  unfold world
  split
  · rename_i h
    split <;> simp [h]
  · rename_i h
    split <;> rename_i h2 <;> simp [h]
    · exact h2
    · simpa using h2

theorem world_link {P : Place} {t : List Byte} (h : ∀ n ∈ P, Name n) : world P t P = some (.link t) := by
  unfold world
  rw [if_pos (List.prefix_refl _), if_pos ⟨rfl, h⟩]

theorem world_sound {P : Place} {t : List Byte} (hP : P ≠ []) : Sound (world P t) := by
  refine ⟨?_, ?_⟩
  · rw [world_dir]; simp [hP]
  · intro l n h
    unfold world at h
    split at h
    · split at h
      · rename_i h1 h2
        refine ⟨?_, h2.2 n (by simp)⟩
        rw [world_dir]
        refine ⟨?_, fun m hm => h2.2 m (by simp [hm])⟩
        rw [← h2.1]
        intro hh
        have := hh.length_le
        simp at this
        omega
      · exact absurd rfl h
    · split at h
      · rename_i h1 h2
        refine ⟨?_, h2 n (by simp)⟩
        rw [world_dir]
        exact ⟨fun hh => h1 (hh.trans (List.prefix_append _ _)), fun m hm => h2 m (by simp [hm])⟩
      · exact absurd rfl h

theorem world_step {P a : Place} {t n : List Byte} (ha : world P t a = some .dir) (hn : Name n) (hp : a ++ [n] ≠ P) : world P t (a ++ [n]) = some .dir := by
  rw [world_dir] at ha ⊢
  refine ⟨?_, ?_⟩
  · intro h
    rcases List.prefix_concat_iff.1 (by simpa using h) with h | h
    · exact hp h.symm
    · exact ha.1 h
  · intro m hm
    rcases List.mem_append.1 hm with hm | hm
    · exact ha.2 m hm
    · simp at hm; subst hm; exact hn

/-- From a directory under the link's target, away from the link, everything leads somewhere below. -/
theorem world_low {P : Place} {t z : List Byte} (hP : P ≠ []) (hz : z ∉ P) : ∀ (cs : List (List Byte)) (a : Place), (∀ c ∈ cs, ch '/' ∉ c ∧ (0 : Byte) ∉ c) → z ∉ cs →
    a.head? = some z → (∀ n ∈ a, Name n) → cs.length < a.count z → ∃ l, Leads (world P t) a cs l ∧ l.head? = some z ∧ 1 ≤ l.count z ∧ l.count z ≤ a.count z := by
  have key : ∀ a : Place, a.head? = some z → ¬ P <+: a := by
    rintro a ha ⟨r, rfl⟩
    cases P with
    | nil => exact hP rfl
    | cons p ps => simp at ha; subst ha; simp at hz
  intro cs
  induction cs with
  | nil => intro a _ _ ha _ hc; exact ⟨a, .done, ha, hc, Nat.le_refl _⟩
  | cons c cs ih =>
    intro a hcs hzc ha hn hc
    have hd : world P t a = some .dir := world_dir.2 ⟨key a ha, hn⟩
    have hcs2 : ∀ c ∈ cs, ch '/' ∉ c ∧ (0 : Byte) ∉ c := fun d hd => hcs d (List.mem_cons_of_mem _ hd)
    have hzc2 : z ∉ cs := fun hh => hzc (List.mem_cons_of_mem _ hh)
    simp only [List.length_cons] at hc
    by_cases h1 : c = [] ∨ c = bytes! "."
    · obtain ⟨l, h3, h4⟩ := ih a hcs2 hzc2 ha hn (by omega)
      exact ⟨l, .stay hd h1 h3, h4⟩
    · by_cases h2 : c = bytes! ".."
      · subst h2
        rcases List.eq_nil_or_concat a with rfl | ⟨b, x, rfl⟩
        · cases ha
        · rw [List.concat_eq_append] at *
          have hcnt : (b ++ [x]).count z = b.count z + [x].count z := List.count_append
          have h1 : [x].count z ≤ 1 := by simpa using List.count_le_length (a := z) (l := [x])
          have hb : b.head? = some z := by
            cases b with
            | nil => rw [show ([] : Place).count z = 0 from rfl] at hcnt; omega
            | cons y b => simpa using ha
          obtain ⟨l, h3, hh, h4, h5⟩ := ih b hcs2 hzc2 hb (fun n hh => hn n (by simp [hh])) (by omega)
          exact ⟨l, .up hd (by rw [List.dropLast_concat]; exact h3), hh, h4, by omega⟩
      · have h3 : c ≠ [] := fun e => h1 (.inl e)
        have h4 : c ≠ bytes! "." := fun e => h1 (.inr e)
        have hN : Name c := ⟨h3, h4, h2, hcs c List.mem_cons_self⟩
        have hcnt : (a ++ [c]).count z = a.count z := by
          rw [List.count_append, List.count_eq_zero_of_not_mem (l := [c]) (by simp; rintro rfl; simp at hzc)]; rfl
        have ha2 : (a ++ [c]).head? = some z := by
          cases a with
          | nil => cases ha
          | cons y b => simpa using ha
        have hd2 : world P t (a ++ [c]) = some .dir := world_step hd hN (fun e => key _ ha2 (by rw [e]; exact List.prefix_refl _))
        obtain ⟨l, h5, hh, h6, h7⟩ := ih (a ++ [c]) hcs2 hzc2 ha2 (world_dir.1 hd2).2 (by omega)
        exact ⟨l, .down hd h3 h4 h2 (.inl hd2) h5, hh, h6, by omega⟩

/-- The target of the link. -/
def deep (z : List Byte) (k : Nat) : List Byte := ch '/' :: join [ch '/'] (List.replicate k z)

theorem world_target {P : Place} {z : List Byte} {t : List Byte} (hP : P ≠ []) (hz : z ∉ P) (hn : Name z) : ∀ (k j : Nat), Leads (world P t) (List.replicate j z) (List.replicate k z) (List.replicate (j + k) z) := by
  have hd : ∀ j, world P t (List.replicate j z) = some .dir := by
    intro j
    rw [world_dir]
    refine ⟨?_, fun n hh => by rw [List.eq_of_mem_replicate hh]; exact hn⟩
    intro hh
    cases P with
    | nil => exact hP rfl
    | cons p ps => exact hz (by rw [← List.eq_of_mem_replicate (hh.subset List.mem_cons_self)]; exact List.mem_cons_self)
  intro k
  induction k with
  | zero => intro j; exact .done
  | succ k ih =>
    intro j
    rw [List.replicate_succ]
    have e : List.replicate j z ++ [z] = List.replicate (j + 1) z := List.replicate_succ'.symm
    refine .down (hd j) hn.1 hn.2.1 hn.2.2.1 (.inl (by rw [e]; exact hd _)) ?_
    rw [e, show j + (k + 1) = j + 1 + k by omega]
    exact ih (j + 1)

theorem world_deep {P : Place} {z : List Byte} (hP : P ≠ []) (hz : z ∉ P) (hn : Name z) (k : Nat) (a : Place) :
    Leads (world P (deep z k)) (origin a (deep z k)) (components (deep z k)) (List.replicate k z) := by
  have h1 : origin a (deep z k) = [] := by simp [origin, deep]
  rw [h1]
  have h2 := (names_normal (fs := world P (deep z k)) (world_sound hP).1 (d := List.replicate k z) (l := List.replicate k z)
    (fun c hc => by rw [List.eq_of_mem_replicate hc]; exact hn.2.2.2.1)).2 (by simpa using world_target (t := deep z k) hP hz hn k 0)
  exact h2.2

/-- Names lead somewhere, and the fresh name occurs on the way there never or `k` times. -/
theorem world_any {P : Place} {z : List Byte} (hP : P ≠ []) (hz : z ∉ P) (hn : Name z) {k : Nat} (hPn : ∀ n ∈ P, Name n) :
    ∀ (d : List (List Byte)) (a : Place), (∀ n ∈ d, Name n) → z ∉ d → world P (deep z k) a = some .dir → a.count z = 0 ∨ a.count z = k →
      ∃ l, Leads (world P (deep z k)) a d l ∧ (l.count z = 0 ∨ l.count z = k) := by
  intro d
  induction d with
  | nil => intro a _ _ _ h; exact ⟨a, .done, h⟩
  | cons n d ih =>
    intro a hd hzd ha hc
    have hN := hd n List.mem_cons_self
    have hd2 : ∀ m ∈ d, Name m := fun m hm => hd m (List.mem_cons_of_mem _ hm)
    have hz2 : z ∉ d := fun hh => hzd (List.mem_cons_of_mem _ hh)
    by_cases hp : a ++ [n] = P
    · have hT := world_deep hP hz hn k a
      obtain ⟨l, h1, h2⟩ := ih (List.replicate k z) hd2 hz2 (by
        rw [world_dir]
        refine ⟨?_, fun m hm => by rw [List.eq_of_mem_replicate hm]; exact hn⟩
        intro hh
        cases P with
        | nil => exact hP rfl
        | cons p ps => exact hz (by rw [← List.eq_of_mem_replicate (hh.subset List.mem_cons_self)]; exact List.mem_cons_self)) (.inr List.count_replicate_self)
      refine ⟨l, .link ha hN.1 hN.2.1 hN.2.2.1 (by rw [hp]; exact world_link hPn) (by simp [deep]) hT h1, h2⟩
    · have h1 := world_step ha hN hp
      have hcnt : (a ++ [n]).count z = a.count z := by
        rw [List.count_append, List.count_eq_zero_of_not_mem (l := [n]) (by simp; rintro rfl; simp at hzd)]; rfl
      obtain ⟨l, h2, h3⟩ := ih (a ++ [n]) hd2 hz2 h1 (by rw [hcnt]; exact hc)
      exact ⟨l, .down ha hN.1 hN.2.1 hN.2.2.1 (.inl h1) h2, h3⟩

/-- The names up to the link lead to its target. -/
theorem world_pre {P : Place} {z : List Byte} (hP : P ≠ []) (hz : z ∉ P) (hn : Name z) {k : Nat} (hPn : ∀ n ∈ P, Name n) :
    ∀ (d a : Place), a ++ d = P → d ≠ [] → Leads (world P (deep z k)) a d (List.replicate k z) := by
  intro d
  induction d with
  | nil => intro a _ h; exact absurd rfl h
  | cons n d ih =>
    intro a h _
    have hN : Name n := hPn n (by rw [← h]; simp)
    have ha : world P (deep z k) a = some .dir := by
      rw [world_dir]
      refine ⟨fun hh => ?_, fun m hm => hPn m (by rw [← h]; simp [hm])⟩
      have := hh.length_le
      rw [← h] at this
      simp at this
      omega
    by_cases hd : d = []
    · subst hd
      exact .link ha hN.1 hN.2.1 hN.2.2.1 (by rw [h]; exact world_link hPn) (by simp [deep]) (world_deep hP hz hn k a) .done
    · have hp : a ++ [n] ≠ P := by
        rw [← h]
        intro e
        have := congrArg List.length e
        simp at this
        exact hd this
      exact .down ha hN.1 hN.2.1 hN.2.2.1 (.inl (world_step ha hN hp)) (ih (a ++ [n]) (by simpa using h) hd)

theorem exists_fresh (cs : List (List Byte)) : ∃ z, Name z ∧ z ∉ cs := by
  have h : ∃ k, ∀ c ∈ cs, c.length < k := by
    induction cs with
    | nil => exact ⟨0, by simp⟩
    | cons c cs ih =>
      obtain ⟨k, hk⟩ := ih
      refine ⟨k + c.length + 1, ?_⟩
      intro d hd
      rcases List.mem_cons.1 hd with rfl | hd
      · omega
      · have := hk d hd; omega
  obtain ⟨k, hk⟩ := h
  refine ⟨List.replicate (k + 1) (ch 'z'), ⟨by simp, ?_, ?_, ?_, ?_⟩, ?_⟩
  · intro e
    have := List.eq_of_mem_replicate (show ch '.' ∈ List.replicate (k + 1) (ch 'z') by rw [e]; decide)
    exact absurd this (by decide)
  · intro e
    have := List.eq_of_mem_replicate (show ch '.' ∈ List.replicate (k + 1) (ch 'z') by rw [e]; decide)
    exact absurd this (by decide)
  · intro e; exact absurd (List.eq_of_mem_replicate e) (by decide)
  · intro e; exact absurd (List.eq_of_mem_replicate e) (by decide)
  · intro e
    have := hk _ e
    simp at this
    omega

theorem resolve_append {a : Place} {A B : List (List Byte)} : resolve a (A ++ B) = (resolve a A).bind fun m => resolve m B := by
  induction A generalizing a with
  | nil => rfl
  | cons c A ih =>
    rw [List.cons_append, resolve, resolve]
    split
    · exact ih
    · split
      · split
        · rfl
        · exact ih
      · exact ih

theorem zero_components {s : List Byte} (h0 : (0 : Byte) ∉ s) : ∀ c ∈ components s, (0 : Byte) ∉ c := by
  intro c hc h
  exact h0 (by rw [← join_components s]; exact mem_join_of h hc)

/-- A file system in which everything that has a name is a directory. -/
noncomputable def everything : Fs := by
  classical
  exact fun l => if ∀ n ∈ l, Name n then some .dir else none

theorem everything_dir {l : Place} (h : ∀ n ∈ l, Name n) : everything l = some .dir := by
  unfold everything; rw [if_pos h]

theorem everything_sound : Sound everything := by
  refine ⟨everything_dir (by simp), ?_⟩
  intro l n h
  unfold everything at h
  split at h
  · rename_i h1
    exact ⟨everything_dir fun m hm => h1 m (by simp [hm]), h1 n (by simp)⟩
  · exact absurd rfl h

theorem everything_linkfree : Linkfree everything := by
  intro l t
  unfold everything
  split <;> simp

theorem everything_leads : ∀ (cs : List (List Byte)) (a : Place), (∀ c ∈ cs, ch '/' ∉ c ∧ (0 : Byte) ∉ c) → (∀ n ∈ a, Name n) → ∃ l, Leads everything a cs l := by
  intro cs
  induction cs with
  | nil => intro a _ _; exact ⟨a, .done⟩
  | cons c cs ih =>
    intro a hcs ha
    have hcs2 : ∀ c ∈ cs, ch '/' ∉ c ∧ (0 : Byte) ∉ c := fun d hd => hcs d (List.mem_cons_of_mem _ hd)
    by_cases h1 : c = [] ∨ c = bytes! "."
    · obtain ⟨l, h⟩ := ih a hcs2 ha
      exact ⟨l, .stay (everything_dir ha) h1 h⟩
    · by_cases h2 : c = bytes! ".."
      · subst h2
        obtain ⟨l, h⟩ := ih a.dropLast hcs2 (fun n hn => ha n (List.dropLast_subset _ hn))
        exact ⟨l, .up (everything_dir ha) h⟩
      · have h3 : c ≠ [] := fun e => h1 (.inl e)
        have h4 : c ≠ bytes! "." := fun e => h1 (.inr e)
        have ha2 : ∀ n ∈ a ++ [c], Name n := by
          intro n hn
          rcases List.mem_append.1 hn with hn | hn
          · exact ha n hn
          · simp at hn; subst hn; exact ⟨h3, h4, h2, hcs _ List.mem_cons_self⟩
        obtain ⟨l, h⟩ := ih (a ++ [c]) hcs2 ha2
        exact ⟨l, .down (everything_dir ha) h3 h4 h2 (.inl (everything_dir ha2)) h⟩

end Ulz.Normfs
