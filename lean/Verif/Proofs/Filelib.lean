import Verif.Model.Filelib
import Verif.Spec.Filelib
import Verif.Proofs.Stringptr
import Verif.Proofs.Hex
/-! Lemmas about the filelib model. -/
namespace Ulz.Filelib
open Ulz.Stringptr (SP memEq memcpy rchr rchrLoop)
open Ulz.Stringptr.Spec (join)
open Spec

/-! ### The components of a path -/

theorem components_ne_nil (s : List Byte) : components s ≠ [] := by
  induction s with
  | nil => simp [components]
  | cons c s ih =>
    rw [components]
    split
    · contradiction
    · split <;> simp

theorem components_cons (s : List Byte) : ∃ h cs, components s = h :: cs := by
  match hc : components s with
  | [] => exact absurd hc (components_ne_nil s)
  | h :: cs => exact ⟨h, cs, rfl⟩

theorem join_components (s : List Byte) : join [ch '/'] (components s) = s := by
  induction s with
  | nil => rfl
  | cons c s ih =>
    obtain ⟨h, cs, e⟩ := components_cons s
    rw [components]
    rw [e] at ih ⊢
    simp only
    split
    · rename_i hc
      subst hc
      rw [join, ih]
      · rfl
      · simp
    · cases cs with
      | nil => simpa [join] using ih
      | cons x xs => simpa [join] using ih

theorem components_no_slash (s : List Byte) : ∀ c ∈ components s, ch '/' ∉ c := by
  induction s with
  | nil => simp [components]
  | cons c s ih =>
    obtain ⟨h, cs, e⟩ := components_cons s
    rw [components]
    rw [e] at ih ⊢
    simp only
    split
    · intro x hx
      rcases List.mem_cons.1 hx with rfl | hx
      · simp
      · exact ih x hx
    · rename_i hc
      intro x hx
      rcases List.mem_cons.1 hx with rfl | hx
      · have := ih h (by simp)
        simp only [List.mem_cons, not_or]
        exact ⟨fun e => hc e.symm, this⟩
      · exact ih x (by simp [hx])

/-! ### The machine on components -/

/-- What the loops do: a stack of components, the beginning of the current component, the rest of the path. -/
def abs (st : List (List Byte)) (p : List Byte) : List Byte → Option (List (List Byte) × List Byte)
  | [] => some (st, p)
  | c :: t =>
    if c = ch '/' then abs (if p = [] then st else st ++ [p]) [] t
    else if c = ch '.' ∧ p = [] then
      match t with
      | [] => some (st, [])
      | d :: t' =>
        if d = ch '/' then abs st [] t'
        else if d = ch '.' then
          match t' with
          | [] => if st = [] then none else some (st.dropLast, [])
          | e :: t'' =>
            if e = ch '/' then if st = [] then none else abs st.dropLast [] t''
            else abs st [ch '.'] (d :: e :: t'')
        else abs st [ch '.'] (d :: t')
    else abs st (p ++ [c]) t
termination_by t => t.length

/-- The components after the machine has stopped. -/
def push (x : List (List Byte) × List Byte) : List (List Byte) := if x.2 = [] then x.1 else x.1 ++ [x.2]

theorem resolve_push {st cs : List (List Byte)} {c : List Byte} (h1 : c ≠ []) (h2 : c ≠ bytes! ".") (h3 : c ≠ bytes! "..") :
    resolve st (c :: cs) = resolve (st ++ [c]) cs := by
  rw [resolve, if_neg (by simp only [not_or]; exact ⟨h1, h2⟩), if_neg h3]

theorem dot_lit : ch '.' = 46#8 := rfl
theorem slash_lit : ch '/' = 47#8 := rfl
theorem resolve_nil {st cs} : resolve st ([] :: cs) = resolve st cs := by rw [resolve, if_pos (.inl rfl)]
theorem resolve_dot {st cs} : resolve st ([ch '.'] :: cs) = resolve st cs := by rw [resolve, if_pos (.inr rfl)]
theorem resolve_up {st cs} : resolve st ([ch '.', ch '.'] :: cs) = if st = [] then none else resolve st.dropLast cs := by
  rw [resolve, if_neg (by decide), if_pos (by decide)]

theorem components_slash (t : List Byte) : components (ch '/' :: t) = [] :: components t := by
  obtain ⟨h, cs, e⟩ := components_cons t
  rw [components, e]; simp

theorem components_char {c : Byte} {t h : List Byte} {cs : List (List Byte)} (hc : c ≠ ch '/')
    (e : components t = h :: cs) : components (c :: t) = (c :: h) :: cs := by
  rw [components, e]; simp [hc]

theorem abs_resolve : ∀ (n : Nat) (t : List Byte), t.length ≤ n → ∀ (st : List (List Byte)) (p h : List Byte)
    (cs : List (List Byte)), components t = h :: cs →
    (p = [] ∨ p ++ h ≠ bytes! "." ∧ p ++ h ≠ bytes! "..") →
    (abs st p t).map push = resolve st ((p ++ h) :: cs) := by
  intro n
  induction n with
  | zero =>
    intro t ht st p h cs hc hp
    obtain rfl := List.length_eq_zero_iff.1 (by omega : t.length = 0)
    simp only [components, List.cons.injEq] at hc
    obtain ⟨rfl, rfl⟩ := hc
    rw [abs, List.append_nil]
    by_cases e : p = []
    · subst e; simp [push, resolve]
    · rw [resolve_push e (by simpa using (hp.resolve_left e).1) (by simpa using (hp.resolve_left e).2)]
      simp [push, e, resolve]
  | succ n ih =>
    intro t ht st p h cs hc hp
    match t, ht, hc with
    | [], _, hc => 
      simp only [components, List.cons.injEq] at hc
      obtain ⟨rfl, rfl⟩ := hc
      rw [abs, List.append_nil]
      by_cases e : p = []
      · subst e; simp [push, resolve]
      · rw [resolve_push e (by simpa using (hp.resolve_left e).1) (by simpa using (hp.resolve_left e).2)]
        simp [push, e, resolve]
    | c :: t, ht, hc =>
      simp only [List.length_cons] at ht
      rw [abs.eq_def]
      simp only
      obtain ⟨h', cs', e'⟩ := components_cons t
      by_cases c1 : c = ch '/'
      · subst c1
        rw [components_slash, e'] at hc
        injection hc with a b
        subst a; subst b
        rw [if_pos rfl, ih t (by omega) _ [] h' cs' e' (.inl rfl), List.append_nil, List.nil_append]
        by_cases e : p = []
        · subst e; simp [resolve]
        · rw [resolve_push e (by simpa using (hp.resolve_left e).1) (by simpa using (hp.resolve_left e).2)]
          simp [e]
      rw [components_char c1 e'] at hc
      injection hc with a b
      subst a; subst b
      rw [if_neg c1]
      by_cases c2 : c = ch '.' ∧ p = []
      · rw [if_pos c2]
        obtain ⟨rfl, rfl⟩ := c2
        match t, ht, e' with
        | [], _, e' =>
          simp only [components, List.cons.injEq] at e'
          obtain ⟨rfl, rfl⟩ := e'
          rw [List.nil_append, resolve_dot]; simp [push, resolve]
        | d :: t', ht, e' =>
          simp only [List.length_cons] at ht
          simp only
          obtain ⟨h2, cs2, e2⟩ := components_cons t'
          by_cases c3 : d = ch '/'
          · subst c3
            rw [components_slash, e2] at e'
            injection e' with a b
            subst a; subst b
            rw [if_pos rfl, ih t' (by omega) _ [] h2 cs2 e2 (.inl rfl)]
            rw [List.nil_append, List.nil_append, resolve_dot]
          rw [components_char c3 e2] at e'
          injection e' with a b
          subst a; subst b
          rw [if_neg c3]
          by_cases c4 : d = ch '.'
          · subst c4
            rw [if_pos rfl]
            match t', ht, e2 with
            | [], _, e2 =>
              simp only [components, List.cons.injEq] at e2
              obtain ⟨rfl, rfl⟩ := e2
              by_cases hs : st = []
              · subst hs
                rw [List.nil_append, resolve_up]; rfl
              · rw [List.nil_append, resolve_up]; simp [resolve, hs, push]
            | e :: t'', ht, e2 =>
              simp only [List.length_cons] at ht
              simp only
              obtain ⟨h3, cs3, e3⟩ := components_cons t''
              by_cases c5 : e = ch '/'
              · subst c5
                rw [components_slash, e3] at e2
                injection e2 with a b
                subst a; subst b
                by_cases hs : st = []
                · subst hs
                  rw [List.nil_append, resolve_up]; rfl
                · rw [if_pos rfl, if_neg hs, ih t'' (by omega) _ [] h3 cs3 e3 (.inl rfl)]
                  rw [List.nil_append, List.nil_append, resolve_up, if_neg hs]
              rw [components_char c5 e3] at e2
              injection e2 with a b
              subst a; subst b
              rw [if_neg c5, ih (ch '.' :: e :: t'') (by simp; omega) st [ch '.'] (ch '.' :: e :: h3) cs3
                (components_char c3 (components_char c5 e3)) (.inr ⟨by simp, by simp⟩)]
              simp
          · rw [if_neg c4, ih (d :: t') (by simp; omega) st [ch '.'] (d :: h2) cs2 (components_char c3 e2)
              (.inr ⟨by simp, by simp [← dot_lit, c4]⟩)]
            simp
      · rw [if_neg c2, ih t (by omega) st (p ++ [c]) h' cs' e']
        · simp
        · right
          by_cases e : p = []
          · subst e
            have hd : c ≠ ch '.' := fun hc => c2 ⟨hc, rfl⟩
            constructor <;> simp [← dot_lit, hd]
          · simpa using hp.resolve_left e

/-! ### The loops follow the machine -/

/-- The output for a stack of components, with the slash after the last. -/
def render (st : List (List Byte)) : List Byte := ch '/' :: (st.map (· ++ [ch '/'])).flatten

theorem render_snoc {st : List (List Byte)} {c : List Byte} : render (st ++ [c]) = render st ++ c ++ [ch '/'] := by
  simp [render]

theorem render_pos (st : List (List Byte)) : 0 < (render st).length := by simp [render]

theorem render_last (st : List (List Byte)) : ∃ x, render st = x ++ [ch '/'] := by
  rcases List.eq_nil_or_concat st with rfl | ⟨a, b, rfl⟩
  · exact ⟨[], rfl⟩
  · exact ⟨render a ++ b, by rw [List.concat_eq_append, render_snoc]⟩

theorem rchrLoop_hit {buf : List Byte} {sz m n : Nat} (h : rd buf m = .ok (ch '/')) (hmn : m < n)
    (hno : ∀ j, m < j → j < n → ∃ c, rd buf j = .ok c ∧ c ≠ ch '/') :
    rchrLoop ⟨buf, sz⟩ (ch '/').toInt n = .ok (some m) := by
  induction n with
  | zero => omega
  | succ n ih =>
    rw [rchrLoop]
    simp only
    by_cases e : m = n
    · subst e
      rw [h, ok_bind, if_pos rfl]
      rfl
    · obtain ⟨c, hc, hne⟩ := hno n (by omega) (by omega)
      rw [hc, ok_bind, if_neg (fun he => hne (BitVec.toInt_inj.1 he))]
      exact ih (by omega) fun j h1 h2 => hno j h1 (by omega)

theorem popSp_spec {st : List (List Byte)} {out J : List Byte} {i : Nat} (ho : out = render st ++ J)
    (wf : ∀ c ∈ st, c ≠ [] ∧ ch '/' ∉ c) :
    popSp ⟨i, out, (render st).length - 1⟩ =
      .ok (if st = [] then none else some ⟨i + 2, out, (render st.dropLast).length⟩) := by
  subst ho
  rcases List.eq_nil_or_concat st with rfl | ⟨a, c, rfl⟩
  · simp [popSp, render, rchr]
  · rw [List.concat_eq_append, render_snoc] at *
    obtain ⟨x, hx⟩ := render_last a
    have hc := (wf c (by simp)).2
    have hr : rchr (some ⟨render a ++ c ++ [ch '/'] ++ J, (render a ++ c ++ [ch '/']).length - 1⟩) (ch '/').toInt
        = .ok (some x.length) := by
      rw [rchr, if_neg (by simp [hx]), hx]
      apply rchrLoop_hit
      · simp [rd]
      · simp
      · intro j h1 h2
        simp only [List.length_append, List.length_cons, List.length_nil] at h2
        have hj : j - (x.length + 1) < c.length := by omega
        refine ⟨c[j - (x.length + 1)], ?_, fun he => hc (he ▸ List.getElem_mem hj)⟩
        rw [rd_append_left (by simp; omega), rd_append_left (by simp; omega), rd_append_right (by simp; omega)]
        simp only [List.length_append, List.length_cons, List.length_nil, Nat.zero_add]
        exact rd_ok hj
    simp only [popSp, hr, ok_bind]
    simp [hx]

theorem popC_eq (s : St) (h : s.size ≤ s.out.length) : popC s = popSp s := by
  unfold popC popSp rchr
  by_cases h0 : s.size = 0
  · simp [h0]
  · rw [if_neg h0]
    simp only
    rw [if_neg h0]
    have key : ∀ k, k < s.out.length → (do
        let k' ← back s.out k
        if (← rd s.out k') = ch '/' then (pure (some k') : C (Option Nat)) else pure none) =
        rchrLoop ⟨s.out, s.size⟩ (ch '/').toInt (k + 1) := by
      intro k
      induction k with
      | zero =>
        intro hk
        simp only [back, rchrLoop, pure_eq_ok, ok_bind, rd_ok hk, BitVec.toInt_inj]
      | succ k ih =>
        intro hk
        rw [back, rchrLoop]
        simp only [rd_ok hk, ok_bind, BitVec.toInt_inj]
        by_cases e : s.out[k + 1] = ch '/'
        · simp [e, rd_ok hk]
        · simp only [e, ne_eq, not_false_eq_true, if_true, if_false]
          exact ih (by omega)
    have := key (s.size - 1) (by omega)
    rw [show s.size - 1 + 1 = s.size by omega] at this
    rw [← this]
    cases back s.out (s.size - 1) with
    | error e => rfl
    | ok k =>
      simp only [ok_bind]
      cases rd s.out k with
      | error e => rfl
      | ok c => simp only [ok_bind]; split <;> rfl

theorem stepC_eq (path : List Byte) (s : St) (h : s.size ≤ s.out.length) : stepC path s = stepSp path s := by
  have hd : dotC path ⟨s.i, s.out, s.size - 1⟩ = dotSp path ⟨s.i, s.out, s.size - 1⟩ := by
    unfold dotC dotSp
    rw [popC_eq _ (by simp only; omega)]
  unfold stepC stepSp
  rw [hd]

theorem abs_nil {st p} : abs st p [] = some (st, p) := by rw [abs]

theorem abs_slash {st p t} : abs st p (ch '/' :: t) = abs (if p = [] then st else st ++ [p]) [] t := by
  rw [abs.eq_def]; simp only [if_true]

theorem abs_slash' {st t} : abs st [] (ch '/' :: t) = abs st [] t := by
  rw [abs_slash, if_pos rfl]

theorem skip_spec {s junk : List Byte} : ∀ fuel i, i < s.length → s[i]? = some (ch '/') → s.length < fuel + i →
    ∃ j, skip (s ++ 0 :: junk) fuel i = .ok j ∧ i ≤ j ∧ j < s.length ∧ s[j]? = some (ch '/') ∧
      ∀ st, abs st [] (s.drop (i + 1)) = abs st [] (s.drop (j + 1)) := by
  intro fuel
  induction fuel with
  | zero => intro i h1 _ h2; omega
  | succ fuel ih =>
    intro i hi hs hf
    rw [skip]
    by_cases e : i + 1 < s.length
    · rw [rd_append_left e, rd_ok e, ok_bind]
      by_cases c : s[i + 1] = ch '/'
      · rw [if_pos c]
        obtain ⟨j, h1, h2, h3, h4, h5⟩ := ih (i + 1) e (by rw [List.getElem?_eq_getElem e, c]) (by omega)
        refine ⟨j, h1, by omega, h3, h4, fun st => ?_⟩
        rw [List.drop_eq_getElem_cons e, c, abs_slash', h5 st]
      · rw [if_neg c]
        exact ⟨i, rfl, Nat.le_refl _, hi, hs, fun _ => rfl⟩
    · rw [rd_append_right (by omega), show i + 1 - s.length = 0 by omega, rd_cons_zero, ok_bind, if_neg (by decide)]
      exact ⟨i, rfl, Nat.le_refl _, hi, hs, fun _ => rfl⟩

/-- The variables of the loop represent the state `(st, p)` of the machine. -/
structure Inv (s : List Byte) (st : List (List Byte)) (p : List Byte) (S : St) : Prop where
  out : (render st ++ p) <+: S.out
  size : S.size = (render st ++ p).length
  le : S.size ≤ S.i
  le' : S.size ≤ s.length
  prev : S.i < s.length → 0 < S.i ∧ (s[S.i - 1]? = some (ch '/') ↔ p = [])
  wf : ∀ c ∈ st, c ≠ [] ∧ ch '/' ∉ c
  wfp : ch '/' ∉ p

theorem abs_char {st p t} {c : Byte} (h1 : c ≠ ch '/') (h2 : c ≠ ch '.' ∨ p ≠ []) :
    abs st p (c :: t) = abs st (p ++ [c]) t := by
  rw [abs.eq_def]
  simp only
  rw [if_neg h1, if_neg (by rintro ⟨a, b⟩; exact h2.elim (· a) (· b))]

theorem abs_dot {st} : abs st [] [ch '.'] = some (st, []) := by
  rw [abs.eq_def]
  simp only
  rw [if_neg (by decide), if_pos (by simp)]

theorem abs_dot_slash {st t} : abs st [] (ch '.' :: ch '/' :: t) = abs st [] t := by
  rw [abs.eq_def]
  simp only
  rw [if_neg (by decide), if_pos (by simp), if_pos trivial]

theorem abs_dot_char {st t} {d : Byte} (h1 : d ≠ ch '/') (h2 : d ≠ ch '.') :
    abs st [] (ch '.' :: d :: t) = abs st [ch '.'] (d :: t) := by
  rw [abs.eq_def]
  simp only
  rw [if_neg (by decide), if_pos (by simp), if_neg h1, if_neg h2]

theorem abs_up {st} : abs st [] [ch '.', ch '.'] = if st = [] then none else some (st.dropLast, []) := by
  rw [abs.eq_def]
  simp only
  rw [if_neg (by decide), if_pos (by simp), if_neg (by decide), if_pos trivial]

theorem abs_up_slash {st t} : abs st [] (ch '.' :: ch '.' :: ch '/' :: t) =
    if st = [] then none else abs st.dropLast [] t := by
  rw [abs.eq_def]
  simp only
  rw [if_neg (by decide), if_pos (by simp), if_neg (by decide), if_pos trivial, if_pos trivial]

theorem abs_up_char {st t} {d : Byte} (h1 : d ≠ ch '/') :
    abs st [] (ch '.' :: ch '.' :: d :: t) = abs st [ch '.'] (ch '.' :: d :: t) := by
  rw [abs.eq_def]
  simp only
  rw [if_neg (by decide), if_pos (by simp), if_neg (by decide), if_pos trivial, if_neg h1]

/-- What one iteration achieves. -/
def Good (s : List Byte) (st : List (List Byte)) (p : List Byte) (S : St) (r : Option St) : Prop :=
  match r with
  | none => abs st p (s.drop S.i) = none
  | some S' => S.i ≤ S'.i ∧ S'.i ≤ s.length ∧ S'.out.length = S.out.length ∧
      ∃ st' p', abs st p (s.drop S.i) = abs st' p' (s.drop (S'.i + 1)) ∧ Inv s st' p' ⟨S'.i + 1, S'.out, S'.size⟩

theorem copy_spec {s junk o : List Byte} {c : Byte} {S : St} (hi : S.i < s.length) (hc : s[S.i]? = some c)
    (ho : o <+: S.out) (hs : S.size = o.length) (hl : S.size < S.out.length) :
    ∃ out', copy (s ++ 0 :: junk) S = .ok (some ⟨S.i, out', S.size + 1⟩) ∧ (o ++ [c]) <+: out' ∧
      out'.length = S.out.length := by
  obtain ⟨J, hJ⟩ := ho
  have hc' : s[S.i] = c := by rw [List.getElem?_eq_getElem hi] at hc; exact Option.some.inj hc
  unfold copy
  rw [rd_append_left hi, rd_ok hi, ok_bind]
  match J, hJ with
  | [], hJ => rw [← hJ, hs] at hl; simp at hl
  | x :: J, hJ =>
    rw [← hJ, wr_append hs, hc']
    exact ⟨_, rfl, ⟨J, by simp⟩, by simp⟩

theorem rd_text {s junk : List Byte} {i : Nat} {c : Byte} (h : s[i]? = some c) : rd (s ++ 0 :: junk) i = .ok c := by
  have : i < s.length := by
    rcases Nat.lt_or_ge i s.length with h' | h'
    · exact h'
    · rw [List.getElem?_eq_none h'] at h; simp at h
  rw [List.getElem?_eq_getElem this] at h
  rw [rd_append_left this, rd_ok this, Option.some.inj h]

theorem rd_end {s junk : List Byte} {i : Nat} (h : i = s.length) : rd (s ++ 0 :: junk) i = .ok 0 := by
  subst h; rw [rd_append_right (Nat.le_refl _)]; simp

theorem rd_prefix {o out : List Byte} {c : Byte} {i : Nat} (h : o <+: out) (hc : o[i]? = some c) : rd out i = .ok c := by
  obtain ⟨J, rfl⟩ := h
  have : i < o.length := by
    rcases Nat.lt_or_ge i o.length with h' | h'
    · exact h'
    · rw [List.getElem?_eq_none h'] at hc; simp at hc
  rw [List.getElem?_eq_getElem this] at hc
  rw [rd_append_left this, rd_ok this, Option.some.inj hc]

theorem drop_get {s : List Byte} {i : Nat} {c : Byte} (h : s[i]? = some c) : s.drop i = c :: s.drop (i + 1) := by
  have : i < s.length := by
    rcases Nat.lt_or_ge i s.length with h' | h'
    · exact h'
    · rw [List.getElem?_eq_none h'] at h; simp at h
  rw [List.getElem?_eq_getElem this] at h
  rw [List.drop_eq_getElem_cons this, Option.some.inj h]

/-- Copying a character that is not a slash. -/
theorem copy_good {s junk : List Byte} {st p S} {c : Byte} (I : Inv s st p S) (hi : S.i < s.length)
    (hl : s.length < S.out.length) (hc : s[S.i]? = some c) (h1 : c ≠ ch '/')
    (ha : abs st p (s.drop S.i) = abs st (p ++ [c]) (s.drop (S.i + 1))) :
    ∃ r, copy (s ++ 0 :: junk) S = .ok r ∧ Good s st p S r := by
  have hle := I.le'
  have hle' := I.le
  obtain ⟨out', e1, e2, e3⟩ := copy_spec (junk := junk) hi hc I.out I.size (by omega)
  refine ⟨_, e1, Nat.le_refl _, by simp only; omega, e3, st, p ++ [c], ha, ?_⟩
  refine ⟨by rw [← List.append_assoc]; exact e2, ?_, by simp only; omega, by simp only; omega, ?_, I.wf, ?_⟩
  · simp only [I.size, List.length_append, List.length_cons, List.length_nil]; omega
  · intro _
    refine ⟨by simp only; omega, ?_⟩
    simp only [Nat.add_sub_cancel, hc, Option.some.injEq]
    simp [h1]
  · simp only [List.mem_append, List.mem_singleton, not_or]
    exact ⟨I.wfp, fun h => h1 h.symm⟩

theorem slash_good {s junk : List Byte} {st p S} (I : Inv s st p S) (hi : S.i < s.length)
    (hl : s.length < S.out.length) (hc : s[S.i]? = some (ch '/')) :
    ∃ r, slash (s ++ 0 :: junk) S = .ok r ∧ Good s st p S r := by
  obtain ⟨j, k1, k2, k3, k4, k5⟩ := skip_spec (junk := junk) ((s ++ 0 :: junk).length + 1) S.i hi hc (by simp; omega)
  have hle := I.le'
  have hle' := I.le
  have hsz := I.size
  have hpos := render_pos st
  simp only [List.length_append] at hsz
  unfold slash
  rw [k1, ok_bind, if_neg (by omega)]
  by_cases hp : p = []
  · subst hp
    obtain ⟨x, hx⟩ := render_last st
    have hr : rd S.out (S.size - 1) = .ok (ch '/') := by
      apply rd_prefix I.out
      simp only [hsz, hx]; simp
    rw [hr, ok_bind, if_neg (by simp)]
    refine ⟨_, rfl, k2, by simp only; omega, rfl, st, [], ?_, ?_⟩
    · rw [drop_get hc, abs_slash', k5]
    · refine ⟨I.out, I.size, by simp only; omega, hle, fun _ => ⟨by simp only; omega, ?_⟩, I.wf, I.wfp⟩
      simp [k4]
  · obtain ⟨y, q, hq⟩ : ∃ y q, p = y ++ [q] := by
      rcases List.eq_nil_or_concat p with h | ⟨a, b, h⟩
      · exact absurd h hp
      · exact ⟨a, b, by rw [h, List.concat_eq_append]⟩
    have hqs : q ≠ ch '/' := fun h => I.wfp (by rw [hq, h]; simp)
    have hr : rd S.out (S.size - 1) = .ok q := by
      apply rd_prefix I.out
      simp only [hsz, hq]; simp
    rw [hr, ok_bind, if_pos hqs]
    obtain ⟨out', e1, e2, e3⟩ := copy_spec (junk := junk) (S := ⟨j, S.out, S.size⟩) k3 k4 I.out I.size (by simp only; omega)
    refine ⟨_, e1, k2, by simp only; omega, e3, st ++ [p], [], ?_, ?_⟩
    · rw [drop_get hc, abs_slash, if_neg hp, k5]
    · refine ⟨?_, ?_, by simp only; omega, by simp only; omega, fun _ => ⟨by simp only; omega, ?_⟩, ?_, by simp⟩
      · rw [List.append_nil, render_snoc]; exact e2
      · simp only [List.append_nil, render_snoc, List.length_append, List.length_cons, List.length_nil]; omega
      · simp [k4]
      · intro c hc
        rcases List.mem_append.1 hc with h | h
        · exact I.wf c h
        · rw [List.mem_singleton.1 h]; exact ⟨hp, I.wfp⟩

theorem step_good {s junk : List Byte} {st p S} (h0 : (0 : Byte) ∉ s) (I : Inv s st p S) (hi : S.i < s.length)
    (hl : s.length < S.out.length) : ∃ r, stepSp (s ++ 0 :: junk) S = .ok r ∧ Good s st p S r := by
  obtain ⟨c, hc⟩ : ∃ c, s[S.i]? = some c := ⟨s[S.i], List.getElem?_eq_getElem hi⟩
  obtain ⟨hpos, hprev⟩ := I.prev hi
  have hsz := I.size
  have hle := I.le
  have hle' := I.le'
  have hrp := render_pos st
  simp only [List.length_append] at hsz
  unfold stepSp
  rw [rd_text hc, ok_bind]
  by_cases c1 : c = ch '/'
  · rw [if_pos c1]; subst c1
    exact slash_good I hi hl hc
  rw [if_neg c1]
  by_cases c2 : c = ch '.'
  rotate_left
  · rw [if_neg c2]
    exact copy_good I hi hl hc c1 (by rw [drop_get hc, abs_char c1 (.inl c2)])
  rw [if_pos c2, if_neg (by omega)]
  subst c2
  obtain ⟨q, hq⟩ : ∃ q, s[S.i - 1]? = some q := ⟨s[S.i - 1], List.getElem?_eq_getElem (by omega)⟩
  rw [rd_text hq, ok_bind]
  by_cases hp : p = []
  rotate_left
  · have : q ≠ ch '/' := fun h => hp (hprev.1 (h ▸ hq))
    rw [if_neg this]
    exact copy_good I hi hl hc c1 (by rw [drop_get hc, abs_char c1 (.inr hp)])
  have hq' := hprev.2 hp
  rw [hq] at hq'
  rw [if_pos (Option.some.inj hq')]
  subst hp
  obtain ⟨x, hx⟩ := render_last st
  have hr : rd S.out (S.size - 1) = .ok (ch '/') := by
    apply rd_prefix I.out
    simp only [hsz, hx]; simp
  rw [hr, ok_bind, if_pos rfl]
  unfold dotSp
  simp only
  have e1 : S.size - 1 + 1 = S.size := by simp only [List.length_nil] at hsz; omega
  rw [e1]
  -- the state unchanged, `k` characters further
  have stay : ∀ k, S.i + k ≤ s.length → (S.i + k + 1 < s.length → s[S.i + k]? = some (ch '/')) →
      abs st [] (s.drop S.i) = abs st [] (s.drop (S.i + k + 1)) →
      Good s st [] S (some ⟨S.i + k, S.out, S.size⟩) := by
    intro k h1 h2 h3
    refine ⟨by simp only; omega, h1, rfl, st, [], h3, I.out, I.size, by simp only; omega, hle', fun h => ⟨by simp only; omega, ?_⟩, I.wf, I.wfp⟩
    simp only [Nat.add_sub_cancel]
    simp [h2 h]
  rcases Nat.lt_or_ge (S.i + 1) s.length with h1 | h1
  rotate_left
  · rw [rd_end (by omega), ok_bind, if_neg (by decide), if_neg (by decide), if_pos rfl]
    refine ⟨_, rfl, stay 0 (by omega) (by omega) ?_⟩
    rw [drop_get hc, List.drop_eq_nil_of_le (by omega), abs_dot, abs_nil]
  obtain ⟨d, hd⟩ : ∃ d, s[S.i + 1]? = some d := ⟨_, List.getElem?_eq_getElem h1⟩
  have hd0 : d ≠ 0 := fun h => h0 (h ▸ List.mem_of_getElem? hd)
  rw [rd_text hd, ok_bind]
  by_cases d1 : d = ch '.'
  rotate_left
  · rw [if_neg d1]
    by_cases d2 : d = ch '/'
    · rw [if_pos d2]; subst d2
      refine ⟨_, rfl, stay 1 (by omega) (fun _ => hd) ?_⟩
      rw [drop_get hc, drop_get hd, abs_dot_slash]
    · rw [if_neg d2, if_neg hd0]
      exact copy_good I hi hl hc c1 (by rw [drop_get hc, drop_get hd, abs_dot_char d2 d1]; rfl)
  rw [if_pos d1]
  subst d1
  -- going up, with the rest of the path after `k` more characters
  have up : ∀ t, abs st [] (s.drop S.i) = (if st = [] then none else abs st.dropLast [] t) → t = s.drop (S.i + 2 + 1) →
      S.i + 2 ≤ s.length → (S.i + 2 < s.length → s[S.i + 2]? = some (ch '/')) →
      ∃ r, popSp ⟨S.i, S.out, S.size - 1⟩ = .ok r ∧ Good s st [] S r := by
    intro t ht ht' h2 h3
    obtain ⟨J, hJ⟩ := I.out
    rw [show S.size - 1 = (render st).length - 1 by simp only [List.length_nil] at hsz; omega]
    rw [popSp_spec (st := st) (J := J) (by rw [← hJ]; simp) I.wf]
    refine ⟨_, rfl, ?_⟩
    by_cases hs : st = []
    · rw [if_pos hs] at ht ⊢
      exact ht
    · rw [if_neg hs] at ht ⊢
      obtain ⟨a, b, hab⟩ : ∃ a b, st = a ++ [b] := by
        rcases List.eq_nil_or_concat st with h | ⟨a, b, h⟩
        · exact absurd h hs
        · exact ⟨a, b, by rw [h, List.concat_eq_append]⟩
      have hdl : st.dropLast = a := by rw [hab]; simp
      have hrl : (render st).length = (render a).length + b.length + 1 := by
        rw [hab, render_snoc]; simp; omega
      have hsz' : S.size = (render st).length := by simpa using hsz
      refine ⟨by simp only; omega, h2, rfl, st.dropLast, [], by rw [ht, ht'], ?_, ?_, ?_, ?_, ?_, ?_, by simp⟩
      · simp only [hdl, List.append_nil]
        rw [← hJ, hab, render_snoc]
        exact ⟨b ++ [ch '/'] ++ J, by simp⟩
      · simp
      · simp only [hdl]; omega
      · simp only [hdl]; omega
      · intro h
        refine ⟨by simp only; omega, ?_⟩
        simp only [Nat.add_sub_cancel]
        simp [h3 (by simp only at h; omega)]
      · intro c hc
        exact I.wf c (List.dropLast_subset _ hc)
  rcases Nat.lt_or_ge (S.i + 2) s.length with h2 | h2
  rotate_left
  · rw [rd_end (by omega), ok_bind, if_pos (.inl rfl)]
    refine up [] ?_ (by rw [List.drop_eq_nil_of_le (by omega)]) (by omega) (by omega)
    rw [drop_get hc, drop_get hd, List.drop_eq_nil_of_le (by omega), abs_up]
    simp only [abs_nil]
  obtain ⟨e, he⟩ : ∃ e, s[S.i + 2]? = some e := ⟨_, List.getElem?_eq_getElem h2⟩
  have he0 : e ≠ 0 := fun h => h0 (h ▸ List.mem_of_getElem? he)
  rw [rd_text he, ok_bind]
  by_cases e2 : e = ch '/'
  · rw [if_pos (.inr e2)]
    subst e2
    refine up _ ?_ rfl (by omega) (fun _ => he)
    rw [drop_get hc, drop_get hd, drop_get he, abs_up_slash]
  · rw [if_neg (by simp only [not_or]; exact ⟨he0, e2⟩)]
    exact copy_good I hi hl hc c1 (by rw [drop_get hc, drop_get hd, drop_get he, abs_up_char e2]; rfl)

/-- What the loops return. -/
def Done (s : List Byte) (len : Nat) (a : Option (List (List Byte) × List Byte)) (r : Option (List Byte × Nat)) : Prop :=
  match a, r with
  | none, none => True
  | some (st, p), some (out, size) => out.length = len ∧ size ≤ s.length ∧ (render st ++ p) <+: out ∧
      size = (render st ++ p).length ∧ ∀ c ∈ push (st, p), c ≠ [] ∧ ch '/' ∉ c
  | _, _ => False

theorem done_of {s : List Byte} {st p} {S : St} (I : Inv s st p S) :
    Done s S.out.length (some (st, p)) (some (S.out, S.size)) := by
  refine ⟨rfl, I.le', I.out, I.size, ?_⟩
  unfold push
  simp only
  split
  · exact I.wf
  · rename_i h
    intro c hc
    rcases List.mem_append.1 hc with h' | h'
    · exact I.wf c h'
    · rw [List.mem_singleton.1 h']; exact ⟨h, I.wfp⟩

theorem loopSp_spec {s junk : List Byte} (h0 : (0 : Byte) ∉ s) : ∀ fuel S st p, Inv s st p S → s.length < S.out.length →
    s.length < fuel + S.i → 0 < fuel → ∃ r, loopSp (s ++ 0 :: junk) s.length fuel S = .ok r ∧
      Done s S.out.length (abs st p (s.drop S.i)) r := by
  intro fuel
  induction fuel with
  | zero =>
    intro S st p I hl hf hf'
    omega
  | succ fuel ih =>
    intro S st p I hl hf _
    rw [loopSp]
    by_cases hi : S.i < s.length
    · rw [if_pos hi]
      obtain ⟨r, e, g⟩ := step_good (junk := junk) h0 I hi hl
      rw [e, ok_bind]
      match r, g with
      | none, g => exact ⟨none, rfl, by rw [show abs st p (s.drop S.i) = none from g]; trivial⟩
      | some S', ⟨g1, g2, g3, st', p', g4, g5⟩ =>
        simp only
        obtain ⟨r, k1, k2⟩ := ih _ st' p' g5 (by simp only; omega) (by simp only; omega) (by omega)
        exact ⟨r, k1, by rw [g4, ← g3]; exact k2⟩
    · rw [if_neg hi]
      refine ⟨_, rfl, ?_⟩
      rw [List.drop_eq_nil_of_le (by omega), abs_nil]
      exact done_of I

/-! ### The loop without the buffer it leaves after a failure -/

/-- `loopC`, forgetting the output buffer after a failure. -/
def loopV (path : List Byte) : (fuel : Nat) → St → C (Option (List Byte × Nat))
  | 0, _ => .error .hang
  | fuel + 1, s => do
    if (← rd path s.i) ≠ 0 then
      match ← stepC path s with
      | none => pure none
      | some s => if (← rd path s.i) = 0 then pure (some (s.out, s.size)) else loopV path fuel ⟨s.i + 1, s.out, s.size⟩
    else pure (some (s.out, s.size))

/-- `normalizepath_cstr` with the output buffer given back as it was after a failure. -/
def cstrV (path out : List Byte) : C (List Byte × Bool) := do
  if (← rd path 0) ≠ ch '/' then pure (out, false)
  else
    match ← loopV path (path.length + 1) ⟨0, out, 0⟩ with
    | none => pure (out, false)
    | some (out, size) => pure ((← finish out size).1, true)

theorem copy_len {P : List Byte} {s s' : St} (h : copy P s = .ok (some s')) : s'.out.length = s.out.length := by
  unfold copy at h
  cases hr : rd P s.i with
  | error e => rw [hr] at h; cases h
  | ok c =>
    rw [hr, ok_bind] at h
    unfold wr at h
    split at h
    · cases h; simp
    · cases h

theorem stepC_len {P : List Byte} {s s' : St} (h : stepC P s = .ok (some s')) : s'.out.length = s.out.length := by
  unfold stepC at h
  cases hr : rd P s.i with
  | error e => rw [hr] at h; cases h
  | ok c =>
    rw [hr, ok_bind] at h
    split at h
    · unfold slash at h
      cases hk : skip P (P.length + 1) s.i with
      | error e => rw [hk] at h; cases h
      | ok i =>
        rw [hk, ok_bind] at h
        split at h
        · exact (copy_len h :)
        · cases hq : rd s.out (s.size - 1) with
          | error e => rw [hq] at h; cases h
          | ok q =>
            rw [hq, ok_bind] at h
            split at h
            · exact (copy_len h :)
            · cases h; rfl
    · split at h
      · split at h
        · cases h
        · cases hp : rd P (s.i - 1) with
          | error e => rw [hp] at h; cases h
          | ok c1 =>
            rw [hp, ok_bind] at h
            split at h
            · cases hq : rd s.out (s.size - 1) with
              | error e => rw [hq] at h; cases h
              | ok q =>
                rw [hq, ok_bind] at h
                split at h
                · unfold dotC at h
                  cases hx : rd P (s.i + 1) with
                  | error e => simp only [hx] at h; cases h
                  | ok x =>
                    simp only [hx, ok_bind] at h
                    split at h
                    · cases hy : rd P (s.i + 2) with
                      | error e => simp only [hy] at h; cases h
                      | ok y =>
                        simp only [hy, ok_bind] at h
                        split at h
                        · unfold popC at h
                          simp only at h
                          split at h
                          · cases h
                          · cases hb : back s.out (s.size - 1 - 1) with
                            | error e => rw [hb] at h; cases h
                            | ok k =>
                              rw [hb, ok_bind] at h
                              cases hz : rd s.out k with
                              | error e => rw [hz] at h; cases h
                              | ok z =>
                                rw [hz, ok_bind] at h
                                split at h
                                · cases h; rfl
                                · cases h
                        · exact (copy_len h :)
                    · split at h
                      · cases h; rfl
                      · split at h
                        · cases h; rfl
                        · exact (copy_len h :)
                · exact copy_len h
            · exact copy_len h
      · exact copy_len h

theorem loopC_of {P : List Byte} : ∀ fuel s r, loopV P fuel s = .ok r →
    match r with
    | none => ∃ o, loopC P fuel s = .ok (o, none) ∧ o.length = s.out.length
    | some (o, n) => loopC P fuel s = .ok (o, some n) := by
  intro fuel
  induction fuel with
  | zero => intro s r h; cases h
  | succ fuel ih =>
    intro s r h
    rw [loopV] at h
    rw [loopC]
    cases hr : rd P s.i with
    | error e => rw [hr] at h; cases h
    | ok c =>
      rw [hr] at h
      simp only [ok_bind] at h ⊢
      split at h
      · rename_i hc
        rw [if_pos hc]
        cases hs : stepC P s with
        | error e => rw [hs] at h; cases h
        | ok q =>
          rw [hs] at h
          simp only [ok_bind] at h ⊢
          cases q with
          | none => cases h; exact ⟨_, rfl, rfl⟩
          | some S =>
            have hl := stepC_len hs
            simp only at h ⊢
            cases hr' : rd P S.i with
            | error e => rw [hr'] at h; cases h
            | ok c' =>
              rw [hr'] at h
              simp only [ok_bind] at h ⊢
              split at h
              · rename_i h0; rw [if_pos h0]; cases h; rfl
              · rename_i h0
                rw [if_neg h0]
                have := ih _ _ h
                cases r with
                | none => obtain ⟨o, h1, h2⟩ := this; exact ⟨o, h1, by rw [h2]; exact hl⟩
                | some x => exact this
      · rename_i hc; rw [if_neg hc]; cases h; rfl

theorem cstr_of {P out o : List Byte} {b : Bool} (h : cstrV P out = .ok (o, b)) :
    ∃ o', normalizepath_cstr P out = .ok (o', b) ∧ (b = true → o' = o) ∧ (b = false → o'.length = out.length) := by
  unfold cstrV at h
  unfold normalizepath_cstr
  cases hr : rd P 0 with
  | error e => rw [hr] at h; cases h
  | ok c =>
    rw [hr] at h
    simp only [ok_bind] at h ⊢
    split at h
    · rename_i hc; rw [if_pos hc]; cases h; exact ⟨_, rfl, fun _ => rfl, fun _ => rfl⟩
    · rename_i hc
      rw [if_neg hc]
      cases hl : loopV P (P.length + 1) ⟨0, out, 0⟩ with
      | error e => rw [hl] at h; cases h
      | ok q =>
        rw [hl, ok_bind] at h
        have := loopC_of _ _ _ hl
        cases q with
        | none =>
          obtain ⟨o', h1, h2⟩ := this
          rw [h1]
          cases h
          exact ⟨_, rfl, by simp, fun _ => h2⟩
        | some x =>
          simp only at this h
          rw [this]
          simp only [ok_bind]
          cases hf : finish x.1 x.2 with
          | error e => rw [hf] at h; cases h
          | ok y => rw [hf] at h; cases h; exact ⟨_, rfl, fun _ => rfl, by simp⟩

theorem loopV_spec {s junk : List Byte} (h0 : (0 : Byte) ∉ s) : ∀ fuel S st p, Inv s st p S → s.length < S.out.length →
    S.i ≤ s.length → s.length < fuel + S.i → ∃ r, loopV (s ++ 0 :: junk) fuel S = .ok r ∧
      Done s S.out.length (abs st p (s.drop S.i)) r := by
  intro fuel
  induction fuel with
  | zero =>
    intro S st p I hl hi hf
    omega
  | succ fuel ih =>
    intro S st p I hl hi' hf
    rw [loopV]
    by_cases hi : S.i < s.length
    · rw [rd_append_left hi, rd_ok hi, ok_bind, if_pos (fun h : s[S.i] = 0 => h0 (h ▸ List.getElem_mem hi)),
        stepC_eq _ _ (by have := I.le'; omega)]
      obtain ⟨r, e, g⟩ := step_good (junk := junk) h0 I hi hl
      rw [e, ok_bind]
      match r, g with
      | none, g => exact ⟨none, rfl, by rw [show abs st p (s.drop S.i) = none from g]; trivial⟩
      | some S', ⟨g1, g2, g3, st', p', g4, g5⟩ =>
        simp only
        by_cases hz : S'.i < s.length
        · rw [rd_append_left hz, rd_ok hz, ok_bind, if_neg (fun h : s[S'.i] = 0 => h0 (h ▸ List.getElem_mem hz))]
          obtain ⟨r, k1, k2⟩ := ih _ st' p' g5 (by simp only; omega) (by simp only; omega) (by simp only; omega)
          exact ⟨r, k1, by rw [g4, ← g3]; exact k2⟩
        · rw [rd_end (by omega), ok_bind, if_pos rfl]
          refine ⟨_, rfl, ?_⟩
          rw [g4, List.drop_eq_nil_of_le (by omega), abs_nil, ← g3]
          exact done_of (S := ⟨S'.i + 1, S'.out, S'.size⟩) g5
    · rw [rd_end (by omega), ok_bind, if_neg (by simp)]
      refine ⟨_, rfl, ?_⟩
      rw [List.drop_eq_nil_of_le (by omega), abs_nil]
      exact done_of I

/-- The first iteration. -/
theorem first_step {s junk out : List Byte} (h1 : s[0]? = some (ch '/')) (hl : s.length < out.length) :
    ∃ S', stepSp (s ++ 0 :: junk) ⟨0, out, 0⟩ = .ok (some S') ∧ S'.i < s.length ∧ S'.out.length = out.length ∧
      abs [] [] (s.drop 1) = abs [] [] (s.drop (S'.i + 1)) ∧ Inv s [] [] ⟨S'.i + 1, S'.out, S'.size⟩ := by
  have hi : 0 < s.length := by
    rcases Nat.eq_zero_or_pos s.length with h | h
    · rw [List.length_eq_zero_iff.1 h] at h1; simp at h1
    · exact h
  unfold stepSp
  rw [rd_text h1, ok_bind, if_pos rfl]
  unfold slash
  obtain ⟨j, k1, k2, k3, k4, k5⟩ := skip_spec (junk := junk) ((s ++ 0 :: junk).length + 1) 0 hi h1 (by simp; omega)
  rw [k1, ok_bind, if_pos rfl]
  obtain ⟨out', e1, e2, e3⟩ := copy_spec (junk := junk) (o := []) (S := ⟨j, out, 0⟩) k3 k4 (List.nil_prefix) rfl (by simp only; omega)
  refine ⟨_, e1, k3, e3, k5 [], ?_⟩
  refine ⟨by simpa [render] using e2, rfl, by simp, by simp only; omega, fun _ => ⟨by simp only; omega, ?_⟩, by simp, by simp⟩
  simp [k4]

theorem push_text {st p} (h : ∀ c ∈ push (st, p), c ≠ [] ∧ ch '/' ∉ c) :
    render st ++ p = if p = [] ∧ st ≠ [] then ch '/' :: join [ch '/'] (push (st, p)) ++ [ch '/']
      else ch '/' :: join [ch '/'] (push (st, p)) := by
  have key : ∀ (st : List (List Byte)) (p : List Byte), (st.map (· ++ [ch '/'])).flatten ++ p = join [ch '/'] (st ++ [p]) := by
    intro st
    induction st with
    | nil => intro p; simp [join]
    | cons a st ih =>
      intro p
      rw [List.cons_append, join]
      · rw [← ih p]; simp
      · simp
  by_cases hp : p = []
  · subst hp
    by_cases hs : st = []
    · subst hs; simp [push, render, join]
    · rw [if_pos ⟨rfl, hs⟩]
      simp only [push, if_true]
      rcases List.eq_nil_or_concat st with h | ⟨a, b, h⟩
      · exact absurd h hs
      · rw [h, List.concat_eq_append, render_snoc, ← key a b]
        simp [render]
  · rw [if_neg (by simp [hp])]
    simp only [push, hp, if_false]
    rw [← key st p]
    simp [render]

theorem finish_spec {s : List Byte} {len st p out size} (h : Done s len (some (st, p)) (some (out, size)))
    (hl : s.length < len) : ∃ J, finish out size =
      .ok (ch '/' :: join [ch '/'] (push (st, p)) ++ 0 :: J, (ch '/' :: join [ch '/'] (push (st, p))).length) ∧
      (ch '/' :: join [ch '/'] (push (st, p)) ++ 0 :: J).length = len ∧
      (ch '/' :: join [ch '/'] (push (st, p))).length ≤ s.length := by
  obtain ⟨h1, h2, ⟨J, h3⟩, h4, h5⟩ := h
  have ht := push_text h5
  generalize hX : ch '/' :: join [ch '/'] (push (st, p)) = X at *
  unfold finish
  by_cases hc : p = [] ∧ st ≠ []
  · rw [if_pos hc] at ht
    rw [ht] at h3 h4
    have hX1 : 1 ≤ X.length := by rw [← hX]; simp
    simp only [List.length_append, List.length_cons, List.length_nil] at h4
    rw [if_pos (by omega), show size - 1 = X.length by omega, ← h3]
    have : rd (X ++ [ch '/'] ++ J) X.length = .ok (ch '/') := by simp [rd]
    rw [this, ok_bind, if_pos rfl, List.append_assoc, List.singleton_append, wr_append rfl]
    refine ⟨J, rfl, ?_, by omega⟩
    rw [← h1, ← h3]; simp
  · rw [if_neg hc] at ht
    rw [ht] at h3 h4
    have hJ : ∃ x J', J = x :: J' := by
      match J, h3 with
      | [], h3 => rw [← h1, ← h3, List.append_nil] at hl; omega
      | x :: J', _ => exact ⟨x, J', rfl⟩
    obtain ⟨x, J', rfl⟩ := hJ
    have hw : wr (X ++ x :: J') size 0 = .ok (X ++ 0 :: J') := wr_append h4
    have hfin : (X ++ 0 :: J').length = len := by rw [← h1, ← h3]; simp
    rw [← h3]
    by_cases hs : 1 < size
    · rw [if_pos hs]
      have hlast : ∃ c, rd (X ++ x :: J') (size - 1) = .ok c ∧ c ≠ ch '/' := by
        have hp : p ≠ [] := by
          intro hp
          have : st = [] := Classical.byContradiction fun h => hc ⟨hp, h⟩
          subst hp; subst this
          rw [← hX] at h4
          simp [push, join] at h4
          omega
        obtain ⟨y, q, hq⟩ : ∃ y q, p = y ++ [q] := by
          rcases List.eq_nil_or_concat p with h | ⟨a, b, h⟩
          · exact absurd h hp
          · exact ⟨a, b, by rw [h, List.concat_eq_append]⟩
        have hqs : q ≠ ch '/' := by
          have := h5 p (by simp [push, hp])
          intro h
          exact this.2 (by rw [hq, h]; simp)
        refine ⟨q, ?_, hqs⟩
        have hX' : X = (render st ++ y) ++ [q] := by rw [← ht, hq, List.append_assoc]
        rw [hX'] at h4 ⊢
        rw [h4]
        simp [rd]
      obtain ⟨c, e1, e2⟩ := hlast
      rw [e1, ok_bind, if_neg e2, hw]
      exact ⟨J', by rw [ok_bind, h4]; rfl, hfin, by omega⟩
    · rw [if_neg hs, hw]
      exact ⟨J', by rw [ok_bind, h4]; rfl, hfin, by omega⟩

theorem abs_normalize (s : List Byte) (h1 : s[0]? = some (ch '/')) :
    normalize s = (abs [] [] (s.drop 1)).map fun x => ch '/' :: join [ch '/'] (push x) := by
  match s, h1 with
  | c :: t, h1 =>
    have hc : c = ch '/' := by simpa using h1
    subst hc
    obtain ⟨h, cs, e⟩ := components_cons t
    have := abs_resolve t.length t (Nat.le_refl _) [] [] h cs e (.inl rfl)
    rw [List.nil_append, ← e] at this
    rw [normalize]
    simp only [if_true, List.drop_succ_cons, List.drop_zero]
    rw [← this, Option.map_map]
    rfl

theorem normalize_rel {s : List Byte} (h : s[0]? ≠ some (ch '/')) : normalize s = none := by
  match s, h with
  | [], _ => rfl
  | c :: t, h =>
    rw [normalize]
    rw [if_neg (by simpa using h)]

/-- The path a stringptr holds after `normalizepath`. -/
theorem normalizepath_spec {s junk : List Byte} (stack : Nat → Byte) (h0 : (0 : Byte) ∉ s) (hs : s.length < PATH_MAX) :
    normalizepath stack ⟨s ++ 0 :: junk, s.length⟩ = .ok
      (match normalize s with
       | none => (⟨s ++ 0 :: junk, s.length⟩, 0)
       | some x => (⟨x ++ 0 :: (s ++ 0 :: junk).drop (x.length + 1), x.length⟩, 1)) := by
  unfold normalizepath
  simp only
  by_cases hz : s.length = 0
  · obtain rfl := List.length_eq_zero_iff.1 hz
    rfl
  rw [if_neg hz]
  by_cases h1 : s[0]? = some (ch '/')
  rotate_left
  · obtain ⟨c, hc⟩ : ∃ c, s[0]? = some c := ⟨s[0]'(by omega), List.getElem?_eq_getElem (by omega)⟩
    rw [rd_text hc, ok_bind, if_pos (by rw [hc] at h1; simpa using h1), normalize_rel h1]
    rfl
  rw [rd_text h1, ok_bind, if_neg (by simp)]
  obtain ⟨S', a1, a2, a3, a4, a5⟩ := first_step (junk := junk) (out := (List.range PATH_MAX).map stack) h1 (by simpa using hs)
  have hlen : ((List.range PATH_MAX).map stack).length = PATH_MAX := by simp
  rw [hlen] at a3
  rw [loopSp, if_pos (by simp only; omega), a1, ok_bind]
  simp only
  obtain ⟨r, b1, b2⟩ := loopSp_spec (junk := junk) h0 s.length _ [] [] a5 (by simp only; omega) (by simp only; omega) (by omega)
  rw [b1, ok_bind, abs_normalize s h1, a4]
  simp only at b2
  rw [a3] at b2
  generalize abs [] [] (s.drop (S'.i + 1)) = a at b2 ⊢
  match a, r, b2 with
  | none, none, _ => rfl
  | some (st, p), some (out, size), b2 =>
    obtain ⟨J, c1, c2, c3⟩ := finish_spec b2 hs
    simp only [c1, ok_bind, Option.map_some]
    generalize ch '/' :: join [ch '/'] (push (st, p)) = X at *
    unfold memcpy
    have e1 : rdN (X ++ 0 :: J) 0 (X.length + 1) = .ok (X ++ [0]) := by
      have := rdN_mid (A := []) (M := X ++ [0]) (B := J) (i := 0) (n := X.length + 1) rfl (by simp)
      simpa using this
    rw [e1, ok_bind]
    have e2 := wrN_mid (A := []) (M := (s ++ 0 :: junk).take (X.length + 1)) (B := (s ++ 0 :: junk).drop (X.length + 1))
      (x := X ++ [0]) (i := 0) rfl (by simp; omega)
    simp only [List.nil_append, List.take_append_drop] at e2
    rw [e2, ok_bind]
    simp
  | none, some _, b2 => exact b2.elim
  | some _, none, b2 => exact b2.elim

theorem cstrV_spec {s junk out : List Byte} (h0 : (0 : Byte) ∉ s) (hs : s.length < out.length) :
    ∃ out', cstrV (s ++ 0 :: junk) out = .ok (out', (normalize s).isSome) ∧ out'.length = out.length ∧
      ∀ x, normalize s = some x → ∃ J, out' = x ++ 0 :: J := by
  unfold cstrV
  by_cases h1 : s[0]? = some (ch '/')
  rotate_left
  · rw [normalize_rel h1]
    have : ∃ c, rd (s ++ 0 :: junk) 0 = .ok c ∧ c ≠ ch '/' := by
      match s, h1 with
      | [], _ => exact ⟨0, rfl, by decide⟩
      | c :: t, h1 => exact ⟨c, rfl, by simpa using h1⟩
    obtain ⟨c, e1, e2⟩ := this
    rw [e1, ok_bind, if_pos e2]
    exact ⟨out, rfl, rfl, by simp⟩
  rw [rd_text h1, ok_bind, if_neg (by simp)]
  obtain ⟨S', a1, a2, a3, a4, a5⟩ := first_step (junk := junk) (out := out) h1 hs
  have hi : 0 < s.length := by omega
  rw [loopV, rd_text h1, ok_bind, if_pos (by decide), stepC_eq _ _ (by simp), a1, ok_bind]
  simp only
  rw [rd_append_left a2, rd_ok a2, ok_bind, if_neg (fun h : s[S'.i] = 0 => h0 (h ▸ List.getElem_mem a2))]
  obtain ⟨r, b1, b2⟩ := loopV_spec (junk := junk) h0 (s ++ 0 :: junk).length _ [] [] a5 (by simp only; omega) (by simp only; omega)
    (by simp; omega)
  rw [b1, ok_bind, abs_normalize s h1, a4]
  simp only at b2
  rw [a3] at b2
  generalize abs [] [] (s.drop (S'.i + 1)) = a at b2 ⊢
  match a, r, b2 with
  | none, none, _ => exact ⟨out, rfl, rfl, by simp⟩
  | some (st, p), some (out1, size), b2 =>
    obtain ⟨J, c1, c2, c3⟩ := finish_spec b2 hs
    simp only [c1, ok_bind, Option.map_some]
    exact ⟨_, rfl, c2, fun x hx => ⟨J, by rw [← Option.some.inj hx]⟩⟩
  | none, some _, b2 => exact b2.elim
  | some _, none, b2 => exact b2.elim

theorem cstr_spec {s junk out : List Byte} (h0 : (0 : Byte) ∉ s) (hs : s.length < out.length) :
    ∃ out', normalizepath_cstr (s ++ 0 :: junk) out = .ok (out', (normalize s).isSome) ∧ out'.length = out.length ∧
      ∀ x, normalize s = some x → ∃ J, out' = x ++ 0 :: J := by
  obtain ⟨o, h1, h2, h3⟩ := cstrV_spec (junk := junk) h0 hs
  obtain ⟨o', k1, k2, k3⟩ := cstr_of h1
  cases hn : normalize s with
  | none => rw [hn] at k1 k3; exact ⟨o', k1, k3 rfl, by simp⟩
  | some x =>
    rw [hn] at k1 k2
    rw [← k2 rfl] at h2 h3
    exact ⟨o', k1, h2, fun y hy => h3 y (hn.trans hy)⟩

/-! ### Paths that are too long -/

theorem step_plain {s junk : List Byte} {S : St} {c : Byte} (hc : s[S.i]? = some c) (h1 : c ≠ ch '/') (h2 : c ≠ ch '.') :
    stepSp (s ++ 0 :: junk) S = copy (s ++ 0 :: junk) S := by
  unfold stepSp
  rw [rd_text hc, ok_bind, if_neg h1, if_neg h2]

theorem loop_over {s junk : List Byte} (hp : ∀ i c, 0 < i → s[i]? = some c → c ≠ ch '/' ∧ c ≠ ch '.') {N : Nat}
    (hN : N ≤ s.length) : ∀ k i out fuel, i + k = N → 0 < i → s.take i <+: out → out.length = N → s.length < fuel + i →
    loopSp (s ++ 0 :: junk) s.length fuel ⟨i, out, i⟩ = .error .oobWrite ∨
      s.length = N ∧ ∃ out', loopSp (s ++ 0 :: junk) s.length fuel ⟨i, out, i⟩ = .ok (some (out', N)) ∧ s <+: out' ∧
        out'.length = N := by
  intro k
  induction k with
  | zero =>
    intro i out fuel hk hi ho hl hf
    obtain rfl : i = N := by omega
    match fuel, hf with
    | 0, hf => omega
    | fuel + 1, hf =>
      rw [loopSp]
      by_cases hs : i < s.length
      · left
        rw [if_pos hs]
        have hc := List.getElem?_eq_getElem hs
        obtain ⟨h1, h2⟩ := hp i _ hi hc
        rw [step_plain (S := ⟨i, out, i⟩) hc h1 h2, copy, rd_text hc, ok_bind]
        simp [wr, hl]
      · right
        rw [if_neg hs]
        refine ⟨by omega, out, rfl, ?_, hl⟩
        rwa [List.take_of_length_le (by omega)] at ho
  | succ k ih =>
    intro i out fuel hk hi ho hl hf
    match fuel, hf with
    | 0, hf => omega
    | fuel + 1, hf =>
      have hs : i < s.length := by omega
      have hc := List.getElem?_eq_getElem hs
      obtain ⟨h1, h2⟩ := hp i _ hi hc
      obtain ⟨out', e1, e2, e3⟩ := copy_spec (junk := junk) (S := ⟨i, out, i⟩) hs hc ho
        (by rw [List.length_take]; simp only; omega) (by simp only; omega)
      rw [loopSp, if_pos hs, step_plain (S := ⟨i, out, i⟩) hc h1 h2, e1, ok_bind]
      simp only
      refine ih (i + 1) out' fuel (by omega) (by omega) ?_ (e3.trans hl) (by omega)
      rw [List.take_add_one, hc]; exact e2

theorem normalizepath_over {s junk : List Byte} (stack : Nat → Byte) (h1 : s[0]? = some (ch '/')) (hl : PATH_MAX ≤ s.length)
    (hp : ∀ i c, 0 < i → s[i]? = some c → c ≠ ch '/' ∧ c ≠ ch '.') :
    normalizepath stack ⟨s ++ 0 :: junk, s.length⟩ = .error .oobWrite := by
  have hM : PATH_MAX = 4096 := rfl
  unfold normalizepath
  simp only
  rw [if_neg (by omega), rd_text h1, ok_bind, if_neg (by simp)]
  have hlen : ((List.range PATH_MAX).map stack).length = PATH_MAX := by simp
  generalize (List.range PATH_MAX).map stack = out0 at hlen ⊢
  have hi : 0 < s.length := by omega
  obtain ⟨out', e1, e2, e3⟩ := copy_spec (junk := junk) (o := []) (S := ⟨0, out0, 0⟩) hi h1 List.nil_prefix rfl (by simp only; omega)
  have hst : stepSp (s ++ 0 :: junk) ⟨0, out0, 0⟩ = .ok (some ⟨0, out', 0 + 1⟩) := by
    unfold stepSp
    rw [rd_text h1, ok_bind, if_pos rfl]
    unfold slash
    have : skip (s ++ 0 :: junk) ((s ++ 0 :: junk).length + 1) 0 = .ok 0 := by
      have hc := List.getElem?_eq_getElem (show 1 < s.length by omega)
      rw [skip, rd_text hc, ok_bind, if_neg (hp 1 _ (by omega) hc).1]
      rfl
    rw [this, ok_bind, if_pos rfl, e1]
  rw [loopSp, if_pos hi, hst, ok_bind]
  simp only
  have ht : s.take 1 = [] ++ [ch '/'] := by
    match s, h1 with
    | c :: t, h1 => simpa using h1
  rcases loop_over (junk := junk) hp hl (PATH_MAX - 1) 1 out' s.length (by omega) (by omega) (by rw [ht]; exact e2)
    (e3.trans hlen) (by omega) with h | ⟨h3, out2, h4, h5, h6⟩
  · rw [h]; rfl
  · rw [h4, ok_bind]
    simp only
    have hc := List.getElem?_eq_getElem (show PATH_MAX - 1 < s.length by omega)
    rw [finish, if_pos (by omega), rd_prefix h5 hc, ok_bind, if_neg (hp _ _ (by omega) hc).1]
    simp [wr, h6]

/-! ### Idempotence -/

theorem resolve_wf {cs : List (List Byte)} : ∀ {st r : List (List Byte)}, (∀ c ∈ cs, ch '/' ∉ c) →
    (∀ c ∈ st, c ≠ [] ∧ c ≠ bytes! "." ∧ c ≠ bytes! ".." ∧ ch '/' ∉ c) → resolve st cs = some r →
    ∀ c ∈ r, c ≠ [] ∧ c ≠ bytes! "." ∧ c ≠ bytes! ".." ∧ ch '/' ∉ c := by
  induction cs with
  | nil =>
    intro st r _ h2 h3
    rw [resolve] at h3
    rw [← Option.some.inj h3]; exact h2
  | cons c cs ih =>
    intro st r h1 h2 h3
    rw [resolve] at h3
    split at h3
    · exact ih (fun c hc => h1 c (by simp [hc])) h2 h3
    · rename_i n1
      split at h3
      · split at h3
        · simp at h3
        · exact ih (fun c hc => h1 c (by simp [hc])) (fun c hc => h2 c (List.dropLast_subset _ hc)) h3
      · rename_i n2
        refine ih (fun c hc => h1 c (by simp [hc])) ?_ h3
        intro d hd
        rcases List.mem_append.1 hd with h | h
        · exact h2 d h
        · rw [List.mem_singleton.1 h]
          simp only [not_or] at n1
          exact ⟨n1.1, n1.2, n2, h1 c (by simp)⟩

theorem resolve_id {cs : List (List Byte)} : ∀ {st}, (∀ c ∈ cs, c ≠ [] ∧ c ≠ bytes! "." ∧ c ≠ bytes! ".." ∧ ch '/' ∉ c) →
    resolve st cs = some (st ++ cs) := by
  induction cs with
  | nil => intro st _; simp [resolve]
  | cons c cs ih =>
    intro st h
    obtain ⟨h1, h2, h3, _⟩ := h c (by simp)
    rw [resolve_push h1 h2 h3, ih fun c hc => h c (by simp [hc])]
    simp

theorem components_text {c : List Byte} (h : ch '/' ∉ c) : components c = [c] := by
  induction c with
  | nil => rfl
  | cons a c ih =>
    simp only [List.mem_cons, not_or] at h
    rw [components_char (fun e => h.1 e.symm) (ih h.2)]

theorem components_text_slash {c t : List Byte} (h : ch '/' ∉ c) : components (c ++ ch '/' :: t) = c :: components t := by
  induction c with
  | nil => exact components_slash t
  | cons a c ih =>
    simp only [List.mem_cons, not_or] at h
    rw [List.cons_append, components_char (fun e => h.1 e.symm) (ih h.2)]

theorem components_join {cs : List (List Byte)} (h : ∀ c ∈ cs, ch '/' ∉ c) (hn : cs ≠ []) :
    components (join [ch '/'] cs) = cs := by
  induction cs with
  | nil => exact absurd rfl hn
  | cons c cs ih =>
    cases cs with
    | nil => rw [join]; exact components_text (h c (by simp))
    | cons d ds =>
      rw [join]
      · rw [List.append_assoc, List.singleton_append, components_text_slash (h c (by simp)),
          ih (fun c hc => h c (by simp [hc])) (by simp)]
      · simp

theorem normalize_idem {s x : List Byte} (h : normalize s = some x) : normalize x = some x := by
  match s, h with
  | c :: t, h =>
    rw [normalize] at h
    split at h
    · obtain ⟨dir, hd, rfl⟩ := Option.map_eq_some_iff.1 h
      have hw := resolve_wf (components_no_slash t) (by simp) hd
      rw [normalize]
      simp only [if_true]
      by_cases hn : dir = []
      · subst hn
        simp [join, components, resolve]
      · rw [components_join (fun c hc => (hw c hc).2.2.2) hn, resolve_id hw]
        simp
    · simp at h

theorem mem_join {sep : List Byte} {cs : List (List Byte)} {b : Byte} (h : b ∈ join sep cs) :
    b ∈ sep ∨ ∃ c ∈ cs, b ∈ c := by
  induction cs with
  | nil => simp [join] at h
  | cons c cs ih =>
    cases cs with
    | nil => exact .inr ⟨c, by simp, by simpa [join] using h⟩
    | cons d ds =>
      rw [join] at h
      · simp only [List.mem_append] at h
        rcases h with (h | h) | h
        · exact .inr ⟨c, by simp, h⟩
        · exact .inl h
        · exact (ih h).imp id fun ⟨c, h1, h2⟩ => ⟨c, by simp [h1], h2⟩
      · simp

theorem mem_join_of {sep : List Byte} {cs : List (List Byte)} {b : Byte} {c : List Byte} (h : b ∈ c) (hc : c ∈ cs) :
    b ∈ join sep cs := by
  induction cs with
  | nil => simp at hc
  | cons d cs ih =>
    cases cs with
    | nil => rw [join]; rw [List.mem_singleton] at hc; exact hc ▸ h
    | cons e es =>
      rw [join]
      · simp only [List.mem_append]
        rcases List.mem_cons.1 hc with rfl | hc
        · exact .inl (.inl h)
        · exact .inr (ih hc)
      · simp

theorem resolve_mem {cs : List (List Byte)} : ∀ {st r : List (List Byte)}, resolve st cs = some r → ∀ c ∈ r, c ∈ st ∨ c ∈ cs := by
  induction cs with
  | nil =>
    intro st r h c hc
    rw [resolve] at h
    rw [← Option.some.inj h] at hc; exact .inl hc
  | cons d cs ih =>
    intro st r h c hc
    rw [resolve] at h
    split at h
    · exact (ih h c hc).imp id (by simp +contextual)
    · split at h
      · split at h
        · simp at h
        · exact (ih h c hc).imp (List.dropLast_subset _ ·) (by simp +contextual)
      · rcases ih h c hc with h' | h'
        · rcases List.mem_append.1 h' with h' | h'
          · exact .inl h'
          · exact .inr (by simp at h'; simp [h'])
        · exact .inr (by simp [h'])

theorem normalize_zero {s x : List Byte} (h0 : (0 : Byte) ∉ s) (h : normalize s = some x) : (0 : Byte) ∉ x := by
  match s, h with
  | c :: t, h =>
    rw [normalize] at h
    split at h
    · obtain ⟨dir, hd, rfl⟩ := Option.map_eq_some_iff.1 h
      have hm := resolve_mem hd
      intro hx
      rcases List.mem_cons.1 hx with hx | hx
      · exact absurd hx (by decide)
      · rcases mem_join hx with hx | ⟨c', h1, h2⟩
        · exact absurd hx (by decide)
        · rcases hm c' h1 with h3 | h3
          · simp at h3
          · have := mem_join_of (sep := [ch '/']) h2 h3
            rw [join_components] at this
            exact h0 (List.mem_cons_of_mem _ this)
    · simp at h

/-! ### getpathdiff -/

theorem diff_spec {A B W j1 j2 : List Byte} (hW : B.length - (if A.length = 1 then [] else A).length < W.length) :
    diff ⟨A ++ j1, A.length⟩ ⟨B ++ j2, B.length⟩ W = .ok
      (A.length,
       let A' := if A.length = 1 then [] else A
       if B.length < A'.length then (W, -1)
       else if B.length = A'.length then (0 :: W.drop 1, 0)
       else if A' <+: B then (B.drop A'.length ++ 0 :: W.drop (B.length - A'.length + 1), ((B.length - A'.length : Nat) : Int))
       else (W, -1)) := by
  unfold diff
  simp only
  have hs : (if A.length = 1 then 0 else A.length) = (if A.length = 1 then [] else A).length := by split <;> simp
  have hA : ∃ j, A ++ j1 = (if A.length = 1 then [] else A) ++ j := by
    split
    · exact ⟨A ++ j1, rfl⟩
    · exact ⟨j1, rfl⟩
  obtain ⟨j, hj⟩ := hA
  have hs1 : (if A.length = 1 then [] else A).length < A.length → (if A.length = 1 then [] else A).length = 0 := by
    split
    · simp
    · intro h; omega
  have hs2 : (if A.length = 1 then [] else A).length ≤ A.length := by split <;> simp
  rw [hs, hj]
  generalize (if A.length = 1 then [] else A) = A' at *
  by_cases h1 : B.length < A'.length
  · rw [if_pos (by omega), if_pos h1]
    have : A'.length = A.length := by
      rcases Nat.lt_or_ge A'.length A.length with h | h
      · have := hs1 h; omega
      · omega
    rw [this]; rfl
  rw [if_neg (by omega), if_neg h1]
  have hr : ((B.length : Int) - A'.length).toNat = B.length - A'.length := by omega
  rw [hr]
  by_cases h2 : B.length = A'.length
  · rw [if_neg (by omega), if_pos h2]
    match W, hW with
    | x :: W, _ =>
      have : B.length - A'.length = 0 := by omega
      rw [this]
      have : ((B.length : Int) - A'.length) = 0 := by omega
      rw [this]
      rfl
    | [], hW => simp at hW
  rw [if_pos (by omega), if_neg h2]
  have e1 : memEq (A' ++ j) 0 (B ++ j2) 0 A'.length = .ok (decide (A' = B.take A'.length)) := by
    unfold memEq
    have a := rdN_mid (A := []) (M := A') (B := j) (i := 0) rfl rfl
    have b := rdN_mid (A := []) (M := B.take A'.length) (B := B.drop A'.length ++ j2) (i := 0) (n := A'.length) rfl (by simp; omega)
    simp only [List.nil_append] at a b
    rw [← List.append_assoc, List.take_append_drop] at b
    rw [a, ok_bind, b, ok_bind]; rfl
  rw [e1, ok_bind]
  by_cases h3 : A' <+: B
  · obtain ⟨C, rfl⟩ := h3
    rw [if_pos (by simp), if_pos ⟨C, rfl⟩]
    have e2 := rdN_mid (A := A') (M := C) (B := j2) (i := A'.length) (n := (A' ++ C).length - A'.length) rfl (by simp)
    rw [e2, ok_bind]
    have hlen : (A' ++ C).length - A'.length = C.length := by simp
    rw [hlen] at hW ⊢
    have e3 := wrN_mid (A := []) (M := W.take C.length) (B := W.drop C.length) (x := C) (i := 0) rfl (by simp; omega)
    simp only [List.nil_append, List.take_append_drop] at e3
    rw [e3, ok_bind, List.drop_eq_getElem_cons (by omega), wr_append rfl, ok_bind]
    simp
    omega
  · rw [if_neg (fun h => h3 (by rw [of_decide_eq_true h]; exact List.take_prefix _ _)), if_neg h3]
    have : A'.length = A.length := by
      rcases Nat.lt_or_ge A'.length A.length with h | h
      · have h' := hs1 h
        exact absurd (by rw [List.length_eq_zero_iff.1 h']; exact List.nil_prefix) h3
      · omega
    rw [this]; rfl

/-- `normalizepath` leaves a stringptr that holds the normalized text, or the text itself. -/
theorem normalizepath_holds {s junk : List Byte} (stack : Nat → Byte) (h0 : (0 : Byte) ∉ s) (hs : s.length < PATH_MAX) :
    ∃ j r, normalizepath stack ⟨s ++ 0 :: junk, s.length⟩ =
      .ok (⟨(normalize s).getD s ++ j, ((normalize s).getD s).length⟩, r) ∧ j[0]? = some 0 := by
  rw [normalizepath_spec stack h0 hs]
  cases normalize s with
  | none => exact ⟨_, _, rfl, rfl⟩
  | some x => exact ⟨_, _, rfl, rfl⟩

/-! ### getFileExt -/

theorem extLoop_spec {name : List Byte} : ∀ n, n ≤ name.length → ∃ k, extLoop name n = .ok k ∧ k ≤ n ∧
    (n > 0 → k > 0) ∧ (∀ m (hm : m < name.length), k ≤ m → m < n → name[m] ≠ ch '.') ∧
    (1 < k → name[k - 1]? = some (ch '.')) := by
  intro n
  induction n with
  | zero => intro _; exact ⟨0, rfl, by omega, by omega, by omega, by omega⟩
  | succ n ih =>
    intro hn
    rw [extLoop]
    by_cases h0 : n > 0
    · rw [if_pos h0, rd_ok (by omega), ok_bind]
      by_cases hc : name[n]'(by omega) = ch '.'
      · rw [if_neg (by simp [hc])]
        exact ⟨n + 1, rfl, by omega, by omega, by omega, fun _ => by simp [hc, List.getElem?_eq_getElem (show n < name.length by omega)]⟩
      · rw [if_pos hc]
        obtain ⟨k, h1, h2, h3, h4, h5⟩ := ih (by omega)
        refine ⟨k, h1, by omega, fun _ => h3 h0, fun m hm hk hmn => ?_, h5⟩
        by_cases e : m = n
        · subst e; exact hc
        · exact h4 m hm hk (by omega)
    · rw [if_neg h0]
      exact ⟨n + 1, rfl, by omega, by omega, by omega, by omega⟩

/-! ### mktempdir -/

/-- The world differs only in what has been drawn from `rand`. -/
def SameDirs (w w' : World) : Prop := w'.mkdir = w.mkdir ∧ w'.nmkdir = w.nmkdir ∧ w'.made = w.made

theorem randomize_spec : ∀ (k : Nat) (w : World) (A M B : List Byte), M.length = k →
    ∃ w' R, randomize w (A ++ M ++ B) A.length k = .ok (w', A ++ R ++ B) ∧ R.length = k ∧
      (∀ c ∈ R, c ∈ Numbers.conv_cypher) ∧ SameDirs w w' := by
  intro k
  induction k with
  | zero =>
    intro w A M B h
    exact ⟨w, M, rfl, h, by simp [List.length_eq_zero_iff.1 h], rfl, rfl, rfl⟩
  | succ k ih =>
    intro w A M B h
    match M, h with
    | m :: M, h =>
      have hlt : w.rand w.nrand % Numbers.conv_cypher.length < Numbers.conv_cypher.length := Nat.mod_lt _ (by decide)
      rw [randomize, rd_ok hlt, ok_bind, List.append_assoc, List.cons_append, wr_append rfl, ok_bind]
      have hmem := List.getElem_mem hlt
      generalize Numbers.conv_cypher[w.rand w.nrand % Numbers.conv_cypher.length] = c at hmem
      obtain ⟨w', R, h1, h2, h3, h4⟩ := ih { w with nrand := w.nrand + 1 } (A ++ [c]) M B (by simpa using h)
      refine ⟨w', c :: R, ?_, by simp [h2], ?_, h4⟩
      · simpa using h1
      · intro x hx
        rcases List.mem_cons.1 hx with rfl | hx
        · exact hmem
        · exact h3 x hx

theorem cstr_ok {s J : List Byte} (h : (0 : Byte) ∉ s) : cstr (s ++ 0 :: J) = .ok s := by
  induction s with
  | nil => rfl
  | cons c s ih =>
    simp only [List.mem_cons, not_or] at h
    rw [List.cons_append, cstr, if_neg (fun e => h.1 e.symm), ih h.2]
    rfl

theorem cypher_nonzero {R : List Byte} (h : ∀ c ∈ R, c ∈ Numbers.conv_cypher) : (0 : Byte) ∉ R := fun h0 =>
  absurd (h 0 h0) (by decide)

/-- What `ulz_mkdtemp` does to a template `A` ++ six characters. -/
def Made (w : World) (A B : List Byte) (r : C (World × List Byte × Bool)) : Prop :=
  r = .error .hang ∨ ∃ w' R, R.length = 6 ∧ (∀ c ∈ R, c ∈ Numbers.conv_cypher) ∧ w'.mkdir = w.mkdir ∧ w.nmkdir ≤ w'.nmkdir ∧
    (r = .ok (w', A ++ R ++ 0 :: B, true) ∧ w'.made = (A ++ R) :: w.made ∨
     r = .ok (w', A ++ R ++ 0 :: B, false) ∧ w'.made = w.made)

theorem mkdtempLoop_spec {l : Nat} {A B : List Byte} (hl : l = A.length + 6) (h0 : (0 : Byte) ∉ A) : ∀ fuel (w : World)
    (M : List Byte), M.length = 6 → Made w A B (mkdtempLoop l fuel w (A ++ M ++ 0 :: B)) := by
  intro fuel
  induction fuel with
  | zero => intro w M hM; exact .inl rfl
  | succ fuel ih =>
    intro w M hM
    obtain ⟨w', R, h1, h2, h3, h4, h5, h6⟩ := randomize_spec 6 w A M (0 :: B) hM
    have hA : A.length = l - 6 := by omega
    rw [mkdtempLoop, ← hA, h1, ok_bind]
    simp only
    have hz : (0 : Byte) ∉ A ++ R := by
      simp only [List.mem_append, not_or]; exact ⟨h0, cypher_nonzero h3⟩
    rw [cstr_ok hz, ok_bind]
    split
    · exact .inr ⟨{ w' with nmkdir := w'.nmkdir + 1, made := (A ++ R) :: w'.made }, R, h2, h3, h4, by simp only [h5]; omega,
        .inl ⟨rfl, by simp only [h6]⟩⟩
    · rcases ih { w' with nmkdir := w'.nmkdir + 1 } R h2 with h | ⟨w2, R2, k1, k2, k3, k4, k5⟩
      · exact .inl h
      · refine .inr ⟨w2, R2, k1, k2, by rw [k3]; exact h4, by simp only [h5] at k4; omega, ?_⟩
        simpa only [h6] using k5
    · exact .inr ⟨{ w' with nmkdir := w'.nmkdir + 1 }, R, h2, h3, h4, by simp only [h5]; omega,
        .inr ⟨rfl, by simp only [h6]⟩⟩

theorem mkdtempLoop_ends {l : Nat} {A B : List Byte} (hl : l = A.length + 6) (h0 : (0 : Byte) ∉ A) : ∀ fuel (w : World)
    (M : List Byte), M.length = 6 → (∃ k, k < fuel ∧ ∀ path, w.mkdir (w.nmkdir + k) path ≠ .eexist) →
    mkdtempLoop l fuel w (A ++ M ++ 0 :: B) ≠ .error .hang := by
  intro fuel
  induction fuel with
  | zero => intro w M hM ⟨k, hk, _⟩; omega
  | succ fuel ih =>
    intro w M hM ⟨k, hk, hne⟩
    obtain ⟨w', R, h1, h2, h3, h4, h5, h6⟩ := randomize_spec 6 w A M (0 :: B) hM
    have hA : A.length = l - 6 := by omega
    rw [mkdtempLoop, ← hA, h1, ok_bind]
    simp only
    have hz : (0 : Byte) ∉ A ++ R := by
      simp only [List.mem_append, not_or]; exact ⟨h0, cypher_nonzero h3⟩
    rw [cstr_ok hz, ok_bind]
    split
    · simp
    · rename_i he
      refine ih { w' with nmkdir := w'.nmkdir + 1 } R h2 ?_
      rw [h4, h5] at he
      match k, hk, hne with
      | 0, _, hne => exact absurd he (hne _)
      | k + 1, hk, hne => exact ⟨k, by omega, by simpa only [h4, h5, Nat.add_assoc, Nat.add_comm 1 k] using hne⟩
    · simp

theorem mkdtemp_spec {A B M : List Byte} (h0 : (0 : Byte) ∉ A) (hM : M.length = 6) (hM0 : (0 : Byte) ∉ M) (fuel : Nat) (w : World) :
    Made w A B (ulz_mkdtemp fuel w (A ++ M ++ 0 :: B)) ∧
    ((∃ k, k < fuel ∧ ∀ path, w.mkdir (w.nmkdir + k) path ≠ .eexist) → ulz_mkdtemp fuel w (A ++ M ++ 0 :: B) ≠ .error .hang) := by
  unfold ulz_mkdtemp
  rw [Hex.strlen_cstr _ _ (by simp only [List.mem_append, not_or]; exact ⟨h0, hM0⟩), ok_bind, if_neg (by simp; omega)]
  exact ⟨mkdtempLoop_spec (by simp [hM]) h0 fuel w M hM, mkdtempLoop_ends (by simp [hM]) h0 fuel w M hM⟩

theorem gen_fn_spec {T P J buf : List Byte} (h : T.length + P.length + 7 ≤ buf.length) :
    gen_fn buf (P ++ J) P.length T = .ok (T ++ P ++ bytes! "XXXXXX" ++ 0 :: buf.drop (T.length + P.length + 7),
      T.length + P.length + 6) := by
  unfold gen_fn
  obtain ⟨b1, b2, b3, b4, hb, l1, l2, l3⟩ : ∃ b1 b2 b3 b4, buf = b1 ++ b2 ++ b3 ++ b4 ∧ b1.length = T.length ∧
      b2.length = P.length ∧ b3.length = 7 := by
    refine ⟨buf.take T.length, (buf.drop T.length).take P.length, (buf.drop (T.length + P.length)).take 7,
      buf.drop (T.length + P.length + 7), ?_, by simp; omega, by simp; omega, by simp; omega⟩
    rw [List.append_assoc, ← List.drop_drop (i := 7), List.take_append_drop, List.append_assoc,
      ← List.drop_drop, List.take_append_drop, List.take_append_drop]
  have e1 := wrN_mid (A := []) (M := b1) (B := b2 ++ b3 ++ b4) (x := T) (i := 0) rfl l1.symm
  have e2 := wrN_mid (A := T) (M := b2) (B := b3 ++ b4) (x := P) (i := T.length) rfl l2.symm
  have e3 := wrN_mid (A := T ++ P) (M := b3) (B := b4) (x := bytes! "XXXXXX" ++ [0]) (i := T.length + P.length)
    (by simp) (by rw [l3]; rfl)
  have e4 := rdN_mid (A := []) (M := P) (B := J) (i := 0) rfl rfl
  have hd : buf.drop (T.length + P.length + 7) = b4 := by
    rw [hb, List.drop_append]
    have : (b1 ++ b2 ++ b3).length = T.length + P.length + 7 := by simp; omega
    rw [List.drop_eq_nil_of_le (by omega), this]
    simp
  rw [hd, hb]
  simp only [List.nil_append, List.append_assoc] at e1 e2 e3 e4 ⊢
  rw [e1, ok_bind, e4, ok_bind, e2, ok_bind, e3, ok_bind]
  simp

end Ulz.Filelib
