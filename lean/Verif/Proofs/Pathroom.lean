import Verif.Spec.Pathroom
import Verif.Proofs.Filelib
/-! Proofs for C193: normalizing with a buffer of any size. -/
set_option linter.unusedVariables false
namespace Ulz.Pathroom
open Ulz.Filelib
open Ulz.Filelib.Spec (components resolve normalize)
open Ulz.Stringptr (SP memcpy memEq)
open Ulz.Stringptr.Spec (join)
open Spec

theorem width_render (st : List (List Byte)) : (render st).length = width st := by
  unfold render width
  rw [List.length_cons, List.length_flatten, List.map_map, Nat.add_comm]
  congr 2
  apply List.map_congr_left
  intro c _
  simp

theorem width_snoc (st : List (List Byte)) (c : List Byte) : width (st ++ [c]) = width st + c.length + 1 := by
  unfold width; simp; omega

/-- The most the machine `abs` ever has in its output. -/
def peak (st : List (List Byte)) (p : List Byte) : List Byte → Nat
  | [] => width st + p.length
  | c :: t =>
    max (width st + p.length) <|
    if c = ch '/' then peak (if p = [] then st else st ++ [p]) [] t
    else if c = ch '.' ∧ p = [] then
      match t with
      | [] => 0
      | d :: t' =>
        if d = ch '/' then peak st [] t'
        else if d = ch '.' then
          match t' with
          | [] => if st = [] then 0 else peak st.dropLast [] []
          | e :: t'' =>
            if e = ch '/' then if st = [] then 0 else peak st.dropLast [] t''
            else peak st [ch '.'] (d :: e :: t'')
        else peak st [ch '.'] (d :: t')
    else peak st (p ++ [c]) t
termination_by t => t.length

theorem peak_ge (st p t) : width st + p.length ≤ peak st p t := by
  rw [peak.eq_def]
  split
  · exact Nat.le_refl _
  · exact Nat.le_max_left ..

theorem peak_nil {st p} : peak st p [] = width st + p.length := by rw [peak]

theorem peak_slash {st p t} : peak st p (ch '/' :: t) = max (width st + p.length) (peak (if p = [] then st else st ++ [p]) [] t) := by
  rw [peak.eq_def]
  simp only
  rw [if_pos trivial]

theorem peak_slash' {st t} : peak st [] (ch '/' :: t) = peak st [] t := by
  have := peak_ge st [] t
  rw [peak_slash, if_pos rfl]; simp only [List.length_nil] at *; omega

theorem peak_char {st p t} {c : Byte} (h1 : c ≠ ch '/') (h2 : c ≠ ch '.' ∨ p ≠ []) :
    peak st p (c :: t) = peak st (p ++ [c]) t := by
  have := peak_ge st (p ++ [c]) t
  rw [peak.eq_def]
  simp only
  rw [if_neg h1, if_neg (by rintro ⟨a, b⟩; exact h2.elim (· a) (· b))]
  simp only [List.length_append, List.length_cons, List.length_nil] at this
  omega

theorem peak_dot {st} : peak st [] [ch '.'] = width st := by
  rw [peak.eq_def]
  simp only
  rw [if_neg (by decide), if_pos (by simp)]
  simp

theorem peak_dot_slash {st t} : peak st [] (ch '.' :: ch '/' :: t) = peak st [] t := by
  have := peak_ge st [] t
  rw [peak.eq_def]
  simp only
  rw [if_neg (by decide), if_pos (by simp), if_pos trivial]
  simp only [List.length_nil] at *
  omega

theorem peak_dot_char {st t} {d : Byte} (h1 : d ≠ ch '/') (h2 : d ≠ ch '.') :
    peak st [] (ch '.' :: d :: t) = peak st [ch '.'] (d :: t) := by
  have := peak_ge st [ch '.'] (d :: t)
  rw [peak.eq_def]
  simp only
  rw [if_neg (by decide), if_pos (by simp), if_neg h1, if_neg h2]
  simp only [List.length_nil, List.length_cons] at *
  omega

theorem peak_up {st} : peak st [] [ch '.', ch '.'] = max (width st) (if st = [] then 0 else peak st.dropLast [] []) := by
  rw [peak.eq_def]
  simp only
  rw [if_neg (by decide), if_pos (by simp), if_neg (by decide), if_pos trivial]
  simp

theorem peak_up_slash {st t} : peak st [] (ch '.' :: ch '.' :: ch '/' :: t) =
    max (width st) (if st = [] then 0 else peak st.dropLast [] t) := by
  rw [peak.eq_def]
  simp only
  rw [if_neg (by decide), if_pos (by simp), if_neg (by decide), if_pos trivial, if_pos trivial]
  simp

theorem peak_up_char {st t} {d : Byte} (h1 : d ≠ ch '/') :
    peak st [] (ch '.' :: ch '.' :: d :: t) = peak st [ch '.'] (ch '.' :: d :: t) := by
  have := peak_ge st [ch '.'] (ch '.' :: d :: t)
  rw [peak.eq_def]
  simp only
  rw [if_neg (by decide), if_pos (by simp), if_neg (by decide), if_pos trivial, if_neg h1]
  simp only [List.length_nil, List.length_cons] at *
  omega

/-! ### The machine and the components -/

theorem reach_ge : ∀ (cs : List (List Byte)) (st : List (List Byte)), width st ≤ reach st cs := by
  intro cs
  induction cs with
  | nil => intro st; exact Nat.le_refl _
  | cons c cs ih =>
    intro st
    rw [reach]
    split
    · exact ih st
    · split
      · split
        · exact Nat.le_refl _
        · exact Nat.le_max_left ..
      · split
        · omega
        · have := ih (st ++ [c])
          rw [width_snoc] at this
          omega

theorem reach_nil {st cs} : reach st ([] :: cs) = reach st cs := by rw [reach, if_pos (.inl rfl)]
theorem reach_dot {st cs} : reach st ([ch '.'] :: cs) = reach st cs := by rw [reach, if_pos (.inr rfl)]
theorem reach_up {st cs} : reach st ([ch '.', ch '.'] :: cs) = max (width st) (if st = [] then 0 else reach st.dropLast cs) := by
  rw [reach, if_neg (by decide), if_pos (by decide)]
  split
  · simp
  · rfl

theorem reach_name {st cs : List (List Byte)} {c : List Byte} (h1 : c ≠ []) (h2 : c ≠ bytes! ".") (h3 : c ≠ bytes! "..") :
    reach st (c :: cs) = if cs = [] then width st + c.length else reach (st ++ [c]) cs := by
  rw [reach, if_neg (by simp only [not_or]; exact ⟨h1, h2⟩), if_neg h3]

theorem peak_end {st : List (List Byte)} {p : List Byte} (hp : p = [] ∨ p ≠ bytes! "." ∧ p ≠ bytes! "..") : peak st p [] = reach st [p] := by
  rw [peak_nil]
  by_cases e : p = []
  · subst e; rw [reach_nil, reach]; rfl
  · rw [reach_name e (hp.resolve_left e).1 (hp.resolve_left e).2, if_pos rfl]

theorem peak_reach : ∀ (n : Nat) (t : List Byte), t.length ≤ n → ∀ (st : List (List Byte)) (p h : List Byte)
    (cs : List (List Byte)), components t = h :: cs →
    (p = [] ∨ p ++ h ≠ bytes! "." ∧ p ++ h ≠ bytes! "..") →
    peak st p t = reach st ((p ++ h) :: cs) := by
  intro n
  induction n with
  | zero =>
    intro t ht st p h cs hc hp
    obtain rfl := List.length_eq_zero_iff.1 (by omega : t.length = 0)
    simp only [components, List.cons.injEq] at hc
    obtain ⟨rfl, rfl⟩ := hc
    rw [List.append_nil] at hp ⊢
    exact peak_end hp
  | succ n ih =>
    intro t ht st p h cs hc hp
    match t, ht, hc with
    | [], _, hc =>
      simp only [components, List.cons.injEq] at hc
      obtain ⟨rfl, rfl⟩ := hc
      rw [List.append_nil] at hp ⊢
      exact peak_end hp
    | c :: t, ht, hc =>
      simp only [List.length_cons] at ht
      obtain ⟨h', cs', e'⟩ := components_cons t
      by_cases c1 : c = ch '/'
      · subst c1
        rw [components_slash, e'] at hc
        injection hc with a b
        subst a; subst b
        rw [List.append_nil] at hp ⊢
        by_cases e : p = []
        · subst e
          rw [peak_slash', ih t (by omega) _ [] h' cs' e' (.inl rfl), reach_nil]; rfl
        · rw [peak_slash, if_neg e, ih t (by omega) _ [] h' cs' e' (.inl rfl), reach_name e (hp.resolve_left e).1 (hp.resolve_left e).2,
            if_neg (by simp)]
          have := reach_ge (([] ++ h') :: cs') (st ++ [p])
          rw [width_snoc] at this
          rw [Nat.max_eq_right (by omega)]; rfl
      rw [components_char c1 e'] at hc
      injection hc with a b
      subst a; subst b
      by_cases c2 : c = ch '.' ∧ p = []
      · obtain ⟨rfl, rfl⟩ := c2
        match t, ht, e' with
        | [], _, e' =>
          simp only [components, List.cons.injEq] at e'
          obtain ⟨rfl, rfl⟩ := e'
          rw [List.nil_append, reach_dot, reach, peak_dot]
        | d :: t', ht, e' =>
          simp only [List.length_cons] at ht
          obtain ⟨h2, cs2, e2⟩ := components_cons t'
          by_cases c3 : d = ch '/'
          · subst c3
            rw [components_slash, e2] at e'
            injection e' with a b
            subst a; subst b
            rw [peak_dot_slash, ih t' (by omega) _ [] h2 cs2 e2 (.inl rfl)]
            rw [List.nil_append, List.nil_append, reach_dot]
          rw [components_char c3 e2] at e'
          injection e' with a b
          subst a; subst b
          by_cases c4 : d = ch '.'
          · subst c4
            match t', ht, e2 with
            | [], _, e2 =>
              simp only [components, List.cons.injEq] at e2
              obtain ⟨rfl, rfl⟩ := e2
              rw [peak_up, List.nil_append, reach_up, reach, peak_nil]; rfl
            | e :: t'', ht, e2 =>
              simp only [List.length_cons] at ht
              obtain ⟨h3, cs3, e3⟩ := components_cons t''
              by_cases c5 : e = ch '/'
              · subst c5
                rw [components_slash, e3] at e2
                injection e2 with a b
                subst a; subst b
                rw [peak_up_slash, ih t'' (by omega) _ [] h3 cs3 e3 (.inl rfl)]
                rw [List.nil_append, List.nil_append, reach_up]
              rw [components_char c5 e3] at e2
              injection e2 with a b
              subst a; subst b
              rw [peak_up_char c5, ih (ch '.' :: e :: t'') (by simp; omega) st [ch '.'] (ch '.' :: e :: h3) cs3
                (components_char c3 (components_char c5 e3)) (.inr ⟨by simp, by simp⟩)]
              simp
          · rw [peak_dot_char c3 c4, ih (d :: t') (by simp; omega) st [ch '.'] (d :: h2) cs2 (components_char c3 e2)
              (.inr ⟨by simp, by simp [← dot_lit, c4]⟩)]
            simp
      · rw [peak_char c1 (by by_cases hx : c = ch '.'; exact .inr fun hy => c2 ⟨hx, hy⟩; exact .inl hx), ih t (by omega) st (p ++ [c]) h' cs' e']
        · simp
        · right
          by_cases e : p = []
          · subst e
            have hd : c ≠ ch '.' := fun hc => c2 ⟨hc, rfl⟩
            constructor <;> simp [← dot_lit, hd]
          · simpa using hp.resolve_left e

/-! ### One iteration -/

/-- What one iteration does with `N` bytes of output. -/
def GoodR (s : List Byte) (N : Nat) (st : List (List Byte)) (p : List Byte) (S : St) : C (Option St) → Prop
  | .ok none => abs st p (s.drop S.i) = none ∧ peak st p (s.drop S.i) = S.size
  | .ok (some S') => S.i ≤ S'.i ∧ S'.i ≤ s.length ∧ S'.out.length = N ∧ S'.size ≤ N ∧
      ∃ st' p', abs st p (s.drop S.i) = abs st' p' (s.drop (S'.i + 1)) ∧
        peak st p (s.drop S.i) = max S.size (peak st' p' (s.drop (S'.i + 1))) ∧ Inv s st' p' ⟨S'.i + 1, S'.out, S'.size⟩
  | .error e => e = .oobWrite ∧ N < peak st p (s.drop S.i)

theorem skip_peak {s junk : List Byte} : ∀ fuel i, i < s.length → s[i]? = some (ch '/') → ∀ j,
    skip (s ++ 0 :: junk) fuel i = .ok j → ∀ st, peak st [] (s.drop (i + 1)) = peak st [] (s.drop (j + 1)) := by
  intro fuel
  induction fuel with
  | zero => intro i _ _ j h; cases h
  | succ fuel ih =>
    intro i hi hs j hj st
    rw [skip] at hj
    by_cases e : i + 1 < s.length
    · rw [rd_append_left e, rd_ok e, ok_bind] at hj
      by_cases c : s[i + 1] = ch '/'
      · rw [if_pos c] at hj
        rw [List.drop_eq_getElem_cons e, c, peak_slash', ih (i + 1) e (by rw [List.getElem?_eq_getElem e, c]) j hj st]
      · rw [if_neg c] at hj
        cases hj; rfl
    · rw [rd_append_right (by omega), show i + 1 - s.length = 0 by omega, rd_cons_zero, ok_bind, if_neg (by decide)] at hj
      cases hj; rfl

theorem copy_full {s junk : List Byte} {S : St} (hi : S.i < s.length) (hl : S.out.length ≤ S.size) :
    copy (s ++ 0 :: junk) S = .error .oobWrite := by
  unfold copy
  rw [rd_append_left hi, rd_ok hi, ok_bind]
  unfold wr
  rw [if_neg (by omega)]
  rfl

theorem inv_size {s st p S} (I : Inv s st p S) : S.size = width st + p.length := by
  rw [I.size, List.length_append, width_render]

theorem copy_goodR {s junk : List Byte} {st p S} {c : Byte} {N : Nat} (I : Inv s st p S) (hi : S.i < s.length)
    (hN : S.out.length = N) (hl : S.size ≤ N) (hc : s[S.i]? = some c) (h1 : c ≠ ch '/')
    (ha : abs st p (s.drop S.i) = abs st (p ++ [c]) (s.drop (S.i + 1)))
    (hk : peak st p (s.drop S.i) = peak st (p ++ [c]) (s.drop (S.i + 1))) :
    GoodR s N st p S (copy (s ++ 0 :: junk) S) := by
  have hle := I.le'
  have hle' := I.le
  have hsz := inv_size I
  have hpk := peak_ge st (p ++ [c]) (s.drop (S.i + 1))
  simp only [List.length_append, List.length_cons, List.length_nil] at hpk
  by_cases hf : S.size < N
  rotate_left
  · rw [copy_full hi (by omega)]
    exact ⟨rfl, by omega⟩
  obtain ⟨out', e1, e2, e3⟩ := copy_spec (junk := junk) hi hc I.out I.size (by omega)
  rw [e1]
  refine ⟨Nat.le_refl _, by simp only; omega, e3.trans hN, by simp only; omega, st, p ++ [c], ha, by simp only; omega, ?_⟩
  refine ⟨by rw [← List.append_assoc]; exact e2, ?_, by simp only; omega, by simp only; omega, ?_, I.wf, ?_⟩
  · simp only [I.size, List.length_append, List.length_cons, List.length_nil]; omega
  · intro _
    refine ⟨by simp only; omega, ?_⟩
    simp only [Nat.add_sub_cancel, hc, Option.some.injEq]
    simp [h1]
  · simp only [List.mem_append, List.mem_singleton, not_or]
    exact ⟨I.wfp, fun h => h1 h.symm⟩

theorem slash_goodR {s junk : List Byte} {st p S} {N : Nat} (I : Inv s st p S) (hi : S.i < s.length)
    (hN : S.out.length = N) (hl : S.size ≤ N) (hc : s[S.i]? = some (ch '/')) :
    GoodR s N st p S (slash (s ++ 0 :: junk) S) := by
  obtain ⟨j, k1, k2, k3, k4, k5⟩ := skip_spec (junk := junk) ((s ++ 0 :: junk).length + 1) S.i hi hc (by simp; omega)
  have k6 := skip_peak (junk := junk) _ S.i hi hc j k1
  have hle := I.le'
  have hle' := I.le
  have hw := inv_size I
  have hsz := I.size
  have hpos := render_pos st
  simp only [List.length_append] at hsz
  unfold slash
  rw [k1, ok_bind, if_neg (by omega)]
  by_cases hp : p = []
  · subst hp
    obtain ⟨x, hx⟩ := render_last st
    have hr : rd S.out (S.size - 1) = .ok (ch '/') := by
      apply rd_prefix I.out
      simp only [hsz, hx]; simp
    have hpk := peak_ge st [] (s.drop (j + 1))
    simp only [List.length_nil] at hpk hw
    rw [hr, ok_bind, if_neg (by simp)]
    refine ⟨k2, by simp only; omega, hN, hl, st, [], ?_, ?_, ?_⟩
    · rw [drop_get hc, abs_slash', k5]
    · rw [drop_get hc, peak_slash', k6]; simp only; omega
    · refine ⟨I.out, I.size, by simp only; omega, hle, fun _ => ⟨by simp only; omega, ?_⟩, I.wf, I.wfp⟩
      simp [k4]
  · obtain ⟨y, q, hq⟩ : ∃ y q, p = y ++ [q] := by
      rcases List.eq_nil_or_concat p with h | ⟨a, b, h⟩
      · exact absurd h hp
      · exact ⟨a, b, by rw [h, List.concat_eq_append]⟩
    have hqs : q ≠ ch '/' := fun h => I.wfp (by rw [hq, h]; simp)
    have hr : rd S.out (S.size - 1) = .ok q := by
      apply rd_prefix I.out
      simp only [hsz, hq]; simp
    have hpk := peak_ge (st ++ [p]) [] (s.drop (j + 1))
    rw [width_snoc, List.length_nil] at hpk
    have hpe : peak st p (s.drop S.i) = max S.size (peak (st ++ [p]) [] (s.drop (j + 1))) := by
      rw [drop_get hc, peak_slash, if_neg hp, k6, hw]
    rw [hr, ok_bind, if_pos hqs]
    by_cases hf : S.size < N
    rotate_left
    · rw [copy_full k3 (by simp only; omega)]
      exact ⟨rfl, by omega⟩
    obtain ⟨out', e1, e2, e3⟩ := copy_spec (junk := junk) (S := ⟨j, S.out, S.size⟩) k3 k4 I.out I.size (by simp only; omega)
    rw [e1]
    refine ⟨k2, by simp only; omega, e3.trans hN, by simp only; omega, st ++ [p], [], ?_, hpe, ?_⟩
    · rw [drop_get hc, abs_slash, if_neg hp, k5]
    · refine ⟨?_, ?_, by simp only; omega, by simp only; omega, fun _ => ⟨by simp only; omega, ?_⟩, ?_, by simp⟩
      · rw [List.append_nil, render_snoc]; exact e2
      · simp only [List.append_nil, render_snoc, List.length_append, List.length_cons, List.length_nil]; omega
      · simp [k4]
      · intro c hc
        rcases List.mem_append.1 hc with h | h
        · exact I.wf c h
        · rw [List.mem_singleton.1 h]; exact ⟨hp, I.wfp⟩

theorem step_goodR {s junk : List Byte} {st p S} {N : Nat} (h0 : (0 : Byte) ∉ s) (I : Inv s st p S) (hi : S.i < s.length)
    (hN : S.out.length = N) (hl : S.size ≤ N) : GoodR s N st p S (stepSp (s ++ 0 :: junk) S) := by
  obtain ⟨c, hc⟩ : ∃ c, s[S.i]? = some c := ⟨s[S.i], List.getElem?_eq_getElem hi⟩
  obtain ⟨hpos, hprev⟩ := I.prev hi
  have hsz := I.size
  have hw := inv_size I
  have hle := I.le
  have hle' := I.le'
  have hrp := render_pos st
  simp only [List.length_append] at hsz
  unfold stepSp
  rw [rd_text hc, ok_bind]
  by_cases c1 : c = ch '/'
  · rw [if_pos c1]; subst c1
    exact slash_goodR I hi hN hl hc
  rw [if_neg c1]
  by_cases c2 : c = ch '.'
  rotate_left
  · rw [if_neg c2]
    exact copy_goodR I hi hN hl hc c1 (by rw [drop_get hc, abs_char c1 (.inl c2)]) (by rw [drop_get hc, peak_char c1 (.inl c2)])
  rw [if_pos c2, if_neg (by omega)]
  subst c2
  obtain ⟨q, hq⟩ : ∃ q, s[S.i - 1]? = some q := ⟨s[S.i - 1], List.getElem?_eq_getElem (by omega)⟩
  rw [rd_text hq, ok_bind]
  by_cases hp : p = []
  rotate_left
  · have : q ≠ ch '/' := fun h => hp (hprev.1 (h ▸ hq))
    rw [if_neg this]
    exact copy_goodR I hi hN hl hc c1 (by rw [drop_get hc, abs_char c1 (.inr hp)]) (by rw [drop_get hc, peak_char c1 (.inr hp)])
  have hq' := hprev.2 hp
  rw [hq] at hq'
  rw [if_pos (Option.some.inj hq')]
  subst hp
  rw [List.length_nil, Nat.add_zero] at hw
  obtain ⟨x, hx⟩ := render_last st
  have hr : rd S.out (S.size - 1) = .ok (ch '/') := by
    apply rd_prefix I.out
    simp only [hsz, hx]; simp
  rw [hr, ok_bind, if_pos rfl]
  unfold dotSp
  simp only
  have e1 : S.size - 1 + 1 = S.size := by simp only [List.length_nil] at hsz; omega
  rw [e1]
  -- the state unchanged, `k` characters further
  have stay : ∀ k, S.i + k ≤ s.length → (S.i + k + 1 < s.length → s[S.i + k]? = some (ch '/')) →
      abs st [] (s.drop S.i) = abs st [] (s.drop (S.i + k + 1)) →
      peak st [] (s.drop S.i) = peak st [] (s.drop (S.i + k + 1)) →
      GoodR s N st [] S (.ok (some ⟨S.i + k, S.out, S.size⟩)) := by
    intro k h1 h2 h3 h4
    have hpk := peak_ge st [] (s.drop (S.i + k + 1))
    rw [List.length_nil] at hpk
    refine ⟨by simp only; omega, h1, hN, hl, st, [], h3, by simp only; omega, I.out, I.size, by simp only; omega, hle', fun h => ⟨by simp only; omega, ?_⟩,
      I.wf, I.wfp⟩
    simp only [Nat.add_sub_cancel]
    simp [h2 h]
  rcases Nat.lt_or_ge (S.i + 1) s.length with h1 | h1
  rotate_left
  · rw [rd_end (by omega), ok_bind, if_neg (by decide), if_neg (by decide), if_pos rfl]
    refine stay 0 (by omega) (by omega) ?_ ?_
    · rw [drop_get hc, List.drop_eq_nil_of_le (by omega), abs_dot, abs_nil]
    · rw [drop_get hc, List.drop_eq_nil_of_le (by omega), peak_dot, peak_nil]; rfl
  obtain ⟨d, hd⟩ : ∃ d, s[S.i + 1]? = some d := ⟨_, List.getElem?_eq_getElem h1⟩
  have hd0 : d ≠ 0 := fun h => h0 (h ▸ List.mem_of_getElem? hd)
  rw [rd_text hd, ok_bind]
  by_cases d1 : d = ch '.'
  rotate_left
  · rw [if_neg d1]
    by_cases d2 : d = ch '/'
    · rw [if_pos d2]; subst d2
      refine stay 1 (by omega) (fun _ => hd) ?_ ?_
      · rw [drop_get hc, drop_get hd, abs_dot_slash]
      · rw [drop_get hc, drop_get hd, peak_dot_slash]
    · rw [if_neg d2, if_neg hd0]
      exact copy_goodR I hi hN hl hc c1 (by rw [drop_get hc, drop_get hd, abs_dot_char d2 d1]; rfl)
        (by rw [drop_get hc, drop_get hd, peak_dot_char d2 d1]; rfl)
  rw [if_pos d1]
  subst d1
  -- going up, with the rest of the path after `k` more characters
  have up : ∀ t, abs st [] (s.drop S.i) = (if st = [] then none else abs st.dropLast [] t) →
      peak st [] (s.drop S.i) = max (width st) (if st = [] then 0 else peak st.dropLast [] t) → t = s.drop (S.i + 2 + 1) →
      S.i + 2 ≤ s.length → (S.i + 2 < s.length → s[S.i + 2]? = some (ch '/')) →
      GoodR s N st [] S (popSp ⟨S.i, S.out, S.size - 1⟩) := by
    intro t ht hpk ht' h2 h3
    obtain ⟨J, hJ⟩ := I.out
    rw [show S.size - 1 = (render st).length - 1 by simp only [List.length_nil] at hsz; omega]
    rw [popSp_spec (st := st) (J := J) (by rw [← hJ]; simp) I.wf]
    by_cases hs : st = []
    · rw [if_pos hs] at ht hpk ⊢
      exact ⟨ht, by omega⟩
    · rw [if_neg hs] at ht hpk ⊢
      obtain ⟨a, b, hab⟩ : ∃ a b, st = a ++ [b] := by
        rcases List.eq_nil_or_concat st with h | ⟨a, b, h⟩
        · exact absurd h hs
        · exact ⟨a, b, by rw [h, List.concat_eq_append]⟩
      have hdl : st.dropLast = a := by rw [hab]; simp
      have hrl : (render st).length = (render a).length + b.length + 1 := by
        rw [hab, render_snoc]; simp; omega
      have hsz' : S.size = (render st).length := by simpa using hsz
      refine ⟨by simp only; omega, h2, hN, by simp only [hdl]; omega, st.dropLast, [], by rw [ht, ht'], by rw [hpk, ht', hw], ?_, ?_, ?_, ?_, ?_, ?_, by simp⟩
      · simp only [hdl, List.append_nil]
        rw [← hJ, hab, render_snoc]
        exact ⟨b ++ [ch '/'] ++ J, by simp⟩
      · simp
      · simp only [hdl]; omega
      · simp only [hdl]; omega
      · intro h
        refine ⟨by simp only; omega, ?_⟩
        simp only [Nat.add_sub_cancel]
        simp [h3 (by simp only at h; omega)]
      · intro c hc
        exact I.wf c (List.dropLast_subset _ hc)
  rcases Nat.lt_or_ge (S.i + 2) s.length with h2 | h2
  rotate_left
  · rw [rd_end (by omega), ok_bind, if_pos (.inl rfl)]
    refine up [] ?_ ?_ (by rw [List.drop_eq_nil_of_le (by omega)]) (by omega) (by omega)
    · rw [drop_get hc, drop_get hd, List.drop_eq_nil_of_le (by omega), abs_up]
      simp only [abs_nil]
    · rw [drop_get hc, drop_get hd, List.drop_eq_nil_of_le (by omega), peak_up]
  obtain ⟨e, he⟩ : ∃ e, s[S.i + 2]? = some e := ⟨_, List.getElem?_eq_getElem h2⟩
  have he0 : e ≠ 0 := fun h => h0 (h ▸ List.mem_of_getElem? he)
  rw [rd_text he, ok_bind]
  by_cases e2 : e = ch '/'
  · rw [if_pos (.inr e2)]
    subst e2
    refine up _ ?_ ?_ rfl (by omega) (fun _ => he)
    · rw [drop_get hc, drop_get hd, drop_get he, abs_up_slash]
    · rw [drop_get hc, drop_get hd, drop_get he, peak_up_slash]
  · rw [if_neg (by simp only [not_or]; exact ⟨he0, e2⟩)]
    exact copy_goodR I hi hN hl hc c1 (by rw [drop_get hc, drop_get hd, drop_get he, abs_up_char e2]; rfl)
      (by rw [drop_get hc, drop_get hd, drop_get he, peak_up_char e2]; rfl)

/-! ### The loops -/

/-- What the loop of `normalizepath` returns with `N` bytes of output. -/
def DoneR (s : List Byte) (N : Nat) (a : Option (List (List Byte) × List Byte)) (pk : Nat) : C (Option (List Byte × Nat)) → Prop
  | .ok r => pk ≤ N ∧ Done s N a r
  | .error e => e = .oobWrite ∧ N < pk

theorem loopSp_any {s junk : List Byte} (h0 : (0 : Byte) ∉ s) {N : Nat} : ∀ fuel S st p, Inv s st p S → S.out.length = N → S.size ≤ N →
    s.length < fuel + S.i → 0 < fuel → DoneR s N (abs st p (s.drop S.i)) (peak st p (s.drop S.i)) (loopSp (s ++ 0 :: junk) s.length fuel S) := by
  intro fuel
  induction fuel with
  | zero => intro S st p I hN hl hf hf'; omega
  | succ fuel ih =>
    intro S st p I hN hl hf _
    rw [loopSp]
    by_cases hi : S.i < s.length
    · rw [if_pos hi]
      have g := step_goodR (junk := junk) h0 I hi hN hl
      match hr : stepSp (s ++ 0 :: junk) S, g with
      | .error e, g => exact g
      | .ok none, g => exact ⟨by rw [g.2]; exact hl, by rw [g.1]; trivial⟩
      | .ok (some S'), ⟨g1, g2, g3, g3', st', p', g4, g4', g5⟩ =>
        rw [ok_bind]
        simp only
        have := ih _ st' p' g5 (by simp only; omega) (by simp only; omega) (by simp only; omega) (by omega)
        rw [g4, g4']
        simp only at this
        match hx : loopSp (s ++ 0 :: junk) s.length fuel ⟨S'.i + 1, S'.out, S'.size⟩, this with
        | .error e, k => exact ⟨k.1, by have := k.2; omega⟩
        | .ok r, k => exact ⟨by have := k.1; omega, k.2⟩
    · rw [if_neg hi, List.drop_eq_nil_of_le (by omega), abs_nil, peak_nil]
      have := inv_size I
      refine ⟨by omega, ?_⟩
      have hd := done_of I
      rwa [hN] at hd

/-- What the loop of `normalizepath_cstr` returns. -/
def DoneC (s : List Byte) (N : Nat) (a : Option (List (List Byte) × List Byte)) (pk : Nat) : C (List Byte × Option Nat) → Prop
  | .ok (o, none) => pk ≤ N ∧ o.length = N ∧ a = none
  | .ok (o, some n) => pk ≤ N ∧ Done s N a (some (o, n))
  | .error e => e = .oobWrite ∧ N < pk

theorem loopC_any {s junk : List Byte} (h0 : (0 : Byte) ∉ s) {N : Nat} : ∀ fuel S st p, Inv s st p S → S.out.length = N → S.size ≤ N →
    S.i ≤ s.length → s.length < fuel + S.i → DoneC s N (abs st p (s.drop S.i)) (peak st p (s.drop S.i)) (loopC (s ++ 0 :: junk) fuel S) := by
  intro fuel
  induction fuel with
  | zero => intro S st p I hN hl hi hf; omega
  | succ fuel ih =>
    intro S st p I hN hl hi' hf
    rw [loopC]
    by_cases hi : S.i < s.length
    · rw [rd_append_left hi, rd_ok hi, ok_bind, if_pos (fun h : s[S.i] = 0 => h0 (h ▸ List.getElem_mem hi)), stepC_eq _ _ (by omega)]
      have g := step_goodR (junk := junk) h0 I hi hN hl
      match hr : stepSp (s ++ 0 :: junk) S, g with
      | .error e, g => exact g
      | .ok none, g => exact ⟨by rw [g.2]; exact hl, hN, g.1⟩
      | .ok (some S'), ⟨g1, g2, g3, g3', st', p', g4, g4', g5⟩ =>
        rw [ok_bind]
        simp only
        rw [g4, g4']
        by_cases hz : S'.i < s.length
        · rw [rd_append_left hz, rd_ok hz, ok_bind, if_neg (fun h : s[S'.i] = 0 => h0 (h ▸ List.getElem_mem hz))]
          have := ih _ st' p' g5 (by simp only; omega) (by simp only; omega) (by simp only; omega) (by simp only; omega)
          simp only at this
          match hx : loopC (s ++ 0 :: junk) fuel ⟨S'.i + 1, S'.out, S'.size⟩, this with
          | .error e, k => exact ⟨k.1, by have := k.2; omega⟩
          | .ok (o, none), k => exact ⟨by have := k.1; omega, k.2⟩
          | .ok (o, some n), k => exact ⟨by have := k.1; omega, k.2⟩
        · rw [rd_end (by omega), ok_bind, if_pos rfl, List.drop_eq_nil_of_le (by omega), abs_nil, peak_nil]
          have hd := done_of (S := ⟨S'.i + 1, S'.out, S'.size⟩) g5
          have hz := inv_size g5
          simp only at hz
          rw [show (⟨S'.i + 1, S'.out, S'.size⟩ : St).out.length = N from g3] at hd
          exact ⟨by omega, hd⟩
    · rw [rd_end (by omega), ok_bind, if_neg (by simp), List.drop_eq_nil_of_le (by omega), abs_nil, peak_nil]
      have hd := done_of I
      have := inv_size I
      rw [hN] at hd
      exact ⟨by omega, hd⟩

/-- The first iteration. -/
theorem first_any {s junk out : List Byte} (h1 : s[0]? = some (ch '/')) :
    (out = [] ∧ stepSp (s ++ 0 :: junk) ⟨0, out, 0⟩ = .error .oobWrite) ∨
    (0 < out.length ∧ ∃ S', stepSp (s ++ 0 :: junk) ⟨0, out, 0⟩ = .ok (some S') ∧ S'.i < s.length ∧ S'.out.length = out.length ∧ S'.size = 1 ∧
      abs [] [] (s.drop 1) = abs [] [] (s.drop (S'.i + 1)) ∧ peak [] [] (s.drop 1) = peak [] [] (s.drop (S'.i + 1)) ∧
      Inv s [] [] ⟨S'.i + 1, S'.out, S'.size⟩) := by
  have hi : 0 < s.length := by
    rcases Nat.eq_zero_or_pos s.length with h | h
    · rw [List.length_eq_zero_iff.1 h] at h1; simp at h1
    · exact h
  unfold stepSp
  rw [rd_text h1, ok_bind, if_pos rfl]
  unfold slash
  obtain ⟨j, k1, k2, k3, k4, k5⟩ := skip_spec (junk := junk) ((s ++ 0 :: junk).length + 1) 0 hi h1 (by simp; omega)
  rw [k1, ok_bind, if_pos rfl]
  by_cases ho : out = []
  · subst ho
    exact .inl ⟨rfl, copy_full k3 (by simp)⟩
  have hol : 0 < out.length := List.length_pos_iff.2 ho
  obtain ⟨out', e1, e2, e3⟩ := copy_spec (junk := junk) (o := []) (S := ⟨j, out, 0⟩) k3 k4 (List.nil_prefix) rfl (by simp only; omega)
  refine .inr ⟨hol, _, e1, k3, e3, rfl, k5 [], skip_peak _ 0 hi h1 j k1 [], ?_⟩
  refine ⟨by simpa [render] using e2, rfl, by simp, by simp only; omega, fun _ => ⟨by simp only; omega, ?_⟩, by simp, by simp⟩
  simp [k4]

/-! ### The end -/

theorem finish_any {s : List Byte} {N st p out size} (h : Done s N (some (st, p)) (some (out, size))) :
    let X := ch '/' :: join [ch '/'] (push (st, p))
    (X.length + 1 ≤ N → ∃ J, finish out size = .ok (X ++ 0 :: J, X.length) ∧ (X ++ 0 :: J).length = N) ∧
    (N < X.length + 1 → finish out size = .error .oobWrite) ∧ X.length ≤ s.length := by
  intro X
  obtain ⟨h1, h2, ⟨J, h3⟩, h4, h5⟩ := h
  have ht := push_text h5
  have hX : ch '/' :: join [ch '/'] (push (st, p)) = X := rfl
  rw [hX] at ht
  unfold finish
  by_cases hc : p = [] ∧ st ≠ []
  · rw [if_pos hc] at ht
    rw [ht] at h3 h4
    have hX1 : 1 ≤ X.length := by rw [← hX]; simp
    have hN : X.length + 1 ≤ N := by
      rw [← h1, ← h3]; simp
    simp only [List.length_append, List.length_cons, List.length_nil] at h4
    rw [if_pos (by omega), show size - 1 = X.length by omega, ← h3]
    have : rd (X ++ [ch '/'] ++ J) X.length = .ok (ch '/') := by simp [rd]
    rw [this, ok_bind, if_pos rfl, List.append_assoc, List.singleton_append, wr_append rfl]
    refine ⟨fun _ => ⟨J, rfl, ?_⟩, by omega, by omega⟩
    rw [← h1, ← h3]; simp
  · rw [if_neg hc] at ht
    rw [ht] at h3 h4
    have hread : ∀ J, 1 < size → ∃ c, rd (X ++ J) (size - 1) = .ok c ∧ c ≠ ch '/' := by
      intro J hs
      have hp : p ≠ [] := by
        intro hp
        have : st = [] := Classical.byContradiction fun h => hc ⟨hp, h⟩
        subst hp; subst this
        rw [← hX] at h4
        simp [push, join] at h4
        omega
      obtain ⟨y, q, hq⟩ : ∃ y q, p = y ++ [q] := by
        rcases List.eq_nil_or_concat p with h | ⟨a, b, h⟩
        · exact absurd h hp
        · exact ⟨a, b, by rw [h, List.concat_eq_append]⟩
      have hqs : q ≠ ch '/' := by
        have := h5 p (by simp [push, hp])
        intro h
        exact this.2 (by rw [hq, h]; simp)
      refine ⟨q, ?_, hqs⟩
      have hX' : X = (render st ++ y) ++ [q] := by rw [← ht, hq, List.append_assoc]
      rw [hX'] at h4 ⊢
      rw [h4]
      simp [rd]
    have red : ∀ (r : C (List Byte)), wr out size 0 = r → (if 1 < size then do
          if (← rd out (size - 1)) = ch '/' then pure (← wr out (size - 1) 0, size - 1) else pure (← wr out size 0, size)
        else do pure (← wr out size 0, size)) = (r >>= fun o => (pure (o, size) : C _)) := by
      intro r hr
      by_cases hs : 1 < size
      · rw [if_pos hs]
        obtain ⟨c, e1, e2⟩ := hread J hs
        rw [← h3] at hr ⊢
        rw [e1, ok_bind, if_neg e2, hr]
      · rw [if_neg hs, hr]
    have hlen : X.length + J.length = N := by rw [← h1, ← h3, List.length_append]
    refine ⟨fun hN => ?_, fun hN => ?_, by omega⟩
    · match J, h3, hlen with
      | [], _, hlen => simp at hlen; omega
      | x :: J', h3, hlen =>
        rw [red (.ok (X ++ 0 :: J')) (by rw [← h3]; exact wr_append h4)]
        exact ⟨J', by rw [ok_bind, h4]; rfl, by simpa using hlen⟩
    · rw [red (.error .oobWrite) (by unfold wr; rw [if_neg (by rw [← h3, List.length_append]; omega)])]
      rfl

theorem room_abs {s : List Byte} (h1 : s[0]? = some (ch '/')) :
    room s = match normalize s with | none => peak [] [] (s.drop 1) | some x => max (peak [] [] (s.drop 1)) (x.length + 1) := by
  match s, h1 with
  | c :: t, h1 =>
    have hc : c = ch '/' := by simpa using h1
    subst hc
    obtain ⟨h, cs, e⟩ := components_cons t
    have := peak_reach t.length t (Nat.le_refl _) [] [] h cs e (.inl rfl)
    rw [List.nil_append, ← e] at this
    rw [room, if_pos rfl]
    simp only [List.drop_succ_cons, List.drop_zero]
    rw [this]
    cases normalize (ch '/' :: t) <;> rfl

theorem room_rel {s : List Byte} (h : s[0]? ≠ some (ch '/')) : room s = 0 := by
  match s, h with
  | [], _ => rfl
  | c :: t, h =>
    rw [room]
    rw [if_neg (by simpa using h)]

/-- `normalizepath` with `PATH_MAX` bytes on the stack, for paths of any length. -/
theorem normalizepath_any {s junk : List Byte} (stack : Nat → Byte) (h0 : (0 : Byte) ∉ s) :
    normalizepath stack ⟨s ++ 0 :: junk, s.length⟩ =
      if room s ≤ PATH_MAX then .ok
        (match normalize s with
         | none => (⟨s ++ 0 :: junk, s.length⟩, 0)
         | some x => (⟨x ++ 0 :: (s ++ 0 :: junk).drop (x.length + 1), x.length⟩, 1))
      else .error .oobWrite := by
  unfold normalizepath
  simp only
  by_cases hz : s.length = 0
  · obtain rfl := List.length_eq_zero_iff.1 hz
    rfl
  rw [if_neg hz]
  by_cases h1 : s[0]? = some (ch '/')
  rotate_left
  · obtain ⟨c, hc⟩ : ∃ c, s[0]? = some c := ⟨s[0]'(by omega), List.getElem?_eq_getElem (by omega)⟩
    rw [rd_text hc, ok_bind, if_pos (by rw [hc] at h1; simpa using h1), normalize_rel h1, room_rel h1, if_pos (Nat.zero_le _)]
    rfl
  rw [rd_text h1, ok_bind, if_neg (by simp)]
  have hlen : ((List.range PATH_MAX).map stack).length = PATH_MAX := by simp
  rcases first_any (junk := junk) (out := (List.range PATH_MAX).map stack) h1 with ⟨a0, _⟩ | ⟨_, S', a1, a2, a3, a3', a4, a4', a5⟩
  · rw [a0] at hlen; exact absurd hlen (by decide)
  rw [hlen] at a3
  rw [loopSp, if_pos (by simp only; omega), a1, ok_bind]
  simp only
  have b := loopSp_any (junk := junk) h0 s.length _ [] [] a5 (N := PATH_MAX) a3 (by simp only [a3']; decide) (by simp only; omega) (by omega)
  rw [room_abs h1, abs_normalize s h1, a4, a4']
  simp only at b
  generalize abs [] [] (s.drop (S'.i + 1)) = a at b ⊢
  generalize peak [] [] (s.drop (S'.i + 1)) = pk at b ⊢
  generalize loopSp (s ++ 0 :: junk) s.length s.length ⟨S'.i + 1, S'.out, S'.size⟩ = r at b ⊢
  match r, b with
  | .error e, ⟨b1, b2⟩ =>
    subst b1
    rw [if_neg]
    · rfl
    · cases a with
      | none => simp only [Option.map_none]; omega
      | some x => intro h; have := (Nat.max_le.1 h).1; omega
  | .ok r, ⟨b1, b2⟩ =>
    rw [ok_bind]
    match a, r, b2 with
    | none, none, _ => simp only [Option.map_none]; rw [if_pos b1]; rfl
    | some (st, p), some (out, size), b2 =>
      obtain ⟨c1, c2, c3⟩ := finish_any b2
      simp only [Option.map_some]
      generalize ch '/' :: join [ch '/'] (push (st, p)) = X at *
      by_cases hf : X.length + 1 ≤ PATH_MAX
      · obtain ⟨J, c1, c4⟩ := c1 hf
        rw [c1, ok_bind, if_pos (Nat.max_le.2 ⟨b1, hf⟩)]
        simp only
        unfold memcpy
        have e1 : rdN (X ++ 0 :: J) 0 (X.length + 1) = .ok (X ++ [0]) := by
          have := rdN_mid (A := []) (M := X ++ [0]) (B := J) (i := 0) (n := X.length + 1) rfl (by simp)
          simpa using this
        rw [e1, ok_bind]
        have e2 := wrN_mid (A := []) (M := (s ++ 0 :: junk).take (X.length + 1)) (B := (s ++ 0 :: junk).drop (X.length + 1))
          (x := X ++ [0]) (i := 0) rfl (by simp; omega)
        simp only [List.nil_append, List.take_append_drop] at e2
        rw [e2, ok_bind]
        simp
      · rw [c2 (by omega), if_neg (fun h => hf (Nat.max_le.1 h).2)]
        rfl
    | none, some _, b2 => exact b2.elim
    | some _, none, b2 => exact b2.elim

/-- `normalizepath_cstr` with an output buffer of any size. -/
theorem cstr_any {s junk out : List Byte} (h0 : (0 : Byte) ∉ s) :
    if room s ≤ out.length then
      ∃ out', normalizepath_cstr (s ++ 0 :: junk) out = .ok (out', (normalize s).isSome) ∧ out'.length = out.length ∧
        ∀ x, normalize s = some x → ∃ J, out' = x ++ 0 :: J
    else normalizepath_cstr (s ++ 0 :: junk) out = .error .oobWrite := by
  by_cases h1 : s[0]? = some (ch '/')
  rotate_left
  · rw [normalize_rel h1, room_rel h1, if_pos (Nat.zero_le _)]
    have : ∃ c, rd (s ++ 0 :: junk) 0 = .ok c ∧ c ≠ ch '/' := by
      match s, h1 with
      | [], _ => exact ⟨0, rfl, by decide⟩
      | c :: t, h1 => exact ⟨c, rfl, by simpa using h1⟩
    obtain ⟨c, e1, e2⟩ := this
    unfold normalizepath_cstr
    rw [e1, ok_bind, if_pos e2]
    exact ⟨out, rfl, rfl, by simp⟩
  have hstart : normalizepath_cstr (s ++ 0 :: junk) out = (loopC (s ++ 0 :: junk) ((s ++ 0 :: junk).length + 1) ⟨0, out, 0⟩ >>= fun q =>
      match q with
      | (out, none) => pure (out, false)
      | (out, some size) => do pure ((← finish out size).1, true)) := by
    unfold normalizepath_cstr
    rw [rd_text h1, ok_bind, if_neg (by simp)]
    rfl
  have hpk := peak_ge [] [] (s.drop 1)
  rw [show width [] = 1 from rfl, List.length_nil] at hpk
  rcases first_any (junk := junk) (out := out) h1 with ⟨a0, a1⟩ | ⟨ho, S', a1, a2, a3, a3', a4, a4', a5⟩
  · subst a0
    have hl : loopC (s ++ 0 :: junk) ((s ++ 0 :: junk).length + 1) ⟨0, [], 0⟩ = .error .oobWrite := by
      rw [loopC, rd_text h1, ok_bind, if_pos (by decide), stepC_eq _ _ (by simp), a1]; rfl
    rw [hstart, hl, if_neg]
    · rfl
    · rw [room_abs h1]
      cases normalize s with
      | none => simp only [List.length_nil]; omega
      | some x => intro h; have := (Nat.max_le.1 h).1; simp only [List.length_nil] at this; omega
  have hi : 0 < s.length := by omega
  have hl : loopC (s ++ 0 :: junk) ((s ++ 0 :: junk).length + 1) ⟨0, out, 0⟩ =
      loopC (s ++ 0 :: junk) (s ++ 0 :: junk).length ⟨S'.i + 1, S'.out, S'.size⟩ := by
    rw [loopC, rd_text h1, ok_bind, if_pos (by decide), stepC_eq _ _ (by simp), a1, ok_bind]
    simp only
    rw [rd_append_left a2, rd_ok a2, ok_bind, if_neg (fun h : s[S'.i] = 0 => h0 (h ▸ List.getElem_mem a2))]
  rw [hstart, hl]
  have b := loopC_any (junk := junk) h0 (s ++ 0 :: junk).length _ [] [] a5 (N := out.length) a3 (by simp only [a3']; omega) (by simp only; omega)
    (by simp; omega)
  rw [room_abs h1, abs_normalize s h1, a4, a4']
  simp only at b
  generalize abs [] [] (s.drop (S'.i + 1)) = a at b ⊢
  generalize peak [] [] (s.drop (S'.i + 1)) = pk at b ⊢
  generalize loopC (s ++ 0 :: junk) (s ++ 0 :: junk).length ⟨S'.i + 1, S'.out, S'.size⟩ = r at b ⊢
  match r, b with
  | .error e, ⟨b1, b2⟩ =>
    subst b1
    rw [if_neg]
    · rfl
    · cases a with
      | none => simp only [Option.map_none]; omega
      | some x => intro h; have := (Nat.max_le.1 h).1; omega
  | .ok (o, none), ⟨b1, b2, b3⟩ =>
    subst b3
    simp only [Option.map_none]
    rw [if_pos b1]
    exact ⟨o, rfl, b2, by simp⟩
  | .ok (o, some n), ⟨b1, b2⟩ =>
    match a, b2 with
    | none, b2 => exact b2.elim
    | some (st, p), b2 =>
      obtain ⟨c1, c2, c3⟩ := finish_any b2
      simp only [Option.map_some, ok_bind]
      by_cases hf : (ch '/' :: join [ch '/'] (push (st, p))).length + 1 ≤ out.length
      · obtain ⟨J, c1, c4⟩ := c1 hf
        rw [if_pos (Nat.max_le.2 ⟨b1, hf⟩), c1, ok_bind]
        exact ⟨_, rfl, c4, fun x hx => ⟨J, by rw [← Option.some.inj hx]⟩⟩
      · rw [c2 (by omega), if_neg (fun h => hf (Nat.max_le.1 h).2)]
        rfl

/-! ### Bounds -/

/-- Reaching never takes more bytes than the components have. -/
theorem reach_le : ∀ (cs : List (List Byte)) (st : List (List Byte)), cs ≠ [] → reach st cs ≤ width st + (join [ch '/'] cs).length := by
  intro cs
  induction cs with
  | nil => intro st h; exact absurd rfl h
  | cons c cs ih =>
    intro st _
    have hj : (join [ch '/'] (c :: cs)).length = c.length + (if cs = [] then 0 else 1 + (join [ch '/'] cs).length) := by
      match cs with
      | [] => simp [join]
      | d :: cs => rw [join]; simp; omega; simp
    rw [hj]
    by_cases hcs : cs = []
    · subst hcs
      rw [if_pos rfl, reach]
      split
      · rw [reach]; omega
      · split
        · rename_i h2; subst h2
          split
          · omega
          · rename_i hs
            have : width st.dropLast ≤ width st := by
              rcases List.eq_nil_or_concat st with h | ⟨a, b, h⟩
              · exact absurd h hs
              · rw [h, List.concat_eq_append, List.dropLast_concat, width_snoc]; omega
            rw [reach]; omega
        · rw [if_pos rfl]; omega
    · rw [if_neg hcs, reach]
      have hi := fun st => ih st hcs
      split
      · have := hi st; omega
      · split
        · split
          · omega
          · rename_i hs
            have : width st.dropLast ≤ width st := by
              rcases List.eq_nil_or_concat st with h | ⟨a, b, h⟩
              · exact absurd h hs
              · rw [h, List.concat_eq_append, List.dropLast_concat, width_snoc]; omega
            have := hi st.dropLast
            omega
        · have := hi (st ++ [c])
          rw [width_snoc] at this
          omega

theorem join_snoc : ∀ (st : List (List Byte)) (c : List Byte), (join [ch '/'] (st ++ [c])).length = width st - 1 + c.length := by
  intro st
  induction st with
  | nil => intro c; simp [join, width]
  | cons a st ih =>
    intro c
    rw [List.cons_append, join]
    · rw [List.length_append, List.length_append, ih c]
      simp [width]; omega
    · simp

/-- The result is never longer than the directory at the start with the components. -/
theorem resolve_len : ∀ (cs : List (List Byte)) (st r : List (List Byte)), cs ≠ [] → resolve st cs = some r →
    (join [ch '/'] r).length + 1 ≤ width st + (join [ch '/'] cs).length := by
  have hjw : ∀ st : List (List Byte), (join [ch '/'] st).length + 1 ≤ width st := by
    intro st
    rcases List.eq_nil_or_concat st with h | ⟨a, b, h⟩
    · subst h; simp [join, width]
    · rw [h, List.concat_eq_append, join_snoc, width_snoc]
      have : 1 ≤ width a := by unfold width; omega
      omega
  have hdl : ∀ st : List (List Byte), st ≠ [] → width st.dropLast ≤ width st := by
    intro st hs
    rcases List.eq_nil_or_concat st with h | ⟨a, b, h⟩
    · exact absurd h hs
    · rw [h, List.concat_eq_append, List.dropLast_concat, width_snoc]; omega
  intro cs
  induction cs with
  | nil => intro st r h; exact absurd rfl h
  | cons c cs ih =>
    intro st r _ hr
    have hj : (join [ch '/'] (c :: cs)).length = c.length + (if cs = [] then 0 else 1 + (join [ch '/'] cs).length) := by
      match cs with
      | [] => simp [join]
      | d :: cs => rw [join]; simp; omega; simp
    rw [hj]
    rw [resolve] at hr
    by_cases hcs : cs = []
    · subst hcs
      simp only [resolve] at hr
      have h1 := hjw st
      split at hr
      · cases hr; omega
      · split at hr
        · split at hr
          · cases hr
          · rename_i hs
            cases hr
            have := hjw st.dropLast
            have := hdl st hs
            omega
        · cases hr
          rw [join_snoc, if_pos rfl]
          have : 1 ≤ width st := by unfold width; omega
          omega
    · rw [if_neg hcs]
      have hi := fun st h => ih st r hcs h
      split at hr
      · have := hi st hr; omega
      · split at hr
        · split at hr
          · cases hr
          · rename_i hs
            have := hi _ hr
            have := hdl st hs
            omega
        · have := hi _ hr
          rw [width_snoc] at this
          omega

theorem normalize_len {s x : List Byte} (h : normalize s = some x) : x.length ≤ s.length := by
  match s, h with
  | [], h => cases h
  | c :: t, h =>
    rw [normalize] at h
    split at h
    · cases hr : resolve [] (components t) with
      | none => rw [hr] at h; cases h
      | some r =>
        rw [hr] at h
        have := resolve_len _ _ _ (components_ne_nil t) hr
        rw [join_components, show width [] = 1 from rfl] at this
        cases h
        simp only [List.length_cons]
        omega
    · cases h

/-! ### getpathdiff -/

theorem diff_any {A B W j1 j2 : List Byte} :
    diff ⟨A ++ j1, A.length⟩ ⟨B ++ j2, B.length⟩ W =
      (let A' := if A.length = 1 then [] else A
       if B.length < A'.length then .ok (A.length, W, -1)
       else if B.length = A'.length then (if 0 < W.length then .ok (A.length, 0 :: W.drop 1, 0) else .error .oobWrite)
       else if A' <+: B then (if B.length - A'.length < W.length then
           .ok (A.length, B.drop A'.length ++ 0 :: W.drop (B.length - A'.length + 1), ((B.length - A'.length : Nat) : Int))
         else .error .oobWrite)
       else .ok (A.length, W, -1)) := by
  unfold diff
  simp only
  have hs : (if A.length = 1 then 0 else A.length) = (if A.length = 1 then [] else A).length := by split <;> simp
  have hA : ∃ j, A ++ j1 = (if A.length = 1 then [] else A) ++ j := by
    split
    · exact ⟨A ++ j1, rfl⟩
    · exact ⟨j1, rfl⟩
  obtain ⟨j, hj⟩ := hA
  have hs1 : (if A.length = 1 then [] else A).length < A.length → (if A.length = 1 then [] else A).length = 0 := by
    split
    · simp
    · intro h; omega
  have hs2 : (if A.length = 1 then [] else A).length ≤ A.length := by split <;> simp
  rw [hs, hj]
  generalize (if A.length = 1 then [] else A) = A' at *
  by_cases h1 : B.length < A'.length
  · rw [if_pos (by omega), if_pos h1]
    have : A'.length = A.length := by
      rcases Nat.lt_or_ge A'.length A.length with h | h
      · have := hs1 h; omega
      · omega
    rw [this]; rfl
  rw [if_neg (by omega), if_neg h1]
  have hr : ((B.length : Int) - A'.length).toNat = B.length - A'.length := by omega
  rw [hr]
  by_cases h2 : B.length = A'.length
  · rw [if_neg (by omega), if_pos h2]
    match W with
    | x :: W =>
      have : B.length - A'.length = 0 := by omega
      rw [this]
      have : ((B.length : Int) - A'.length) = 0 := by omega
      rw [this]
      rfl
    | [] => rfl
  rw [if_pos (by omega), if_neg h2]
  have e1 : memEq (A' ++ j) 0 (B ++ j2) 0 A'.length = .ok (decide (A' = B.take A'.length)) := by
    unfold memEq
    have a := rdN_mid (A := []) (M := A') (B := j) (i := 0) rfl rfl
    have b := rdN_mid (A := []) (M := B.take A'.length) (B := B.drop A'.length ++ j2) (i := 0) (n := A'.length) rfl (by simp; omega)
    simp only [List.nil_append] at a b
    rw [← List.append_assoc, List.take_append_drop] at b
    rw [a, ok_bind, b, ok_bind]; rfl
  rw [e1, ok_bind]
  by_cases h3 : A' <+: B
  · obtain ⟨C, rfl⟩ := h3
    rw [if_pos (by simp), if_pos ⟨C, rfl⟩]
    have e2 := rdN_mid (A := A') (M := C) (B := j2) (i := A'.length) (n := (A' ++ C).length - A'.length) rfl (by simp)
    rw [e2, ok_bind]
    have hlen : (A' ++ C).length - A'.length = C.length := by simp
    rw [hlen]
    by_cases hW : C.length < W.length
    rotate_left
    · rw [if_neg hW]
      unfold wrN
      by_cases hW2 : 0 + C.length ≤ W.length
      · rw [if_pos hW2, ok_bind]
        unfold wr
        rw [if_neg (by rw [put_length hW2]; omega)]; rfl
      · rw [if_neg hW2]; rfl
    rw [if_pos hW]
    have e3 := wrN_mid (A := []) (M := W.take C.length) (B := W.drop C.length) (x := C) (i := 0) rfl (by simp; omega)
    simp only [List.nil_append, List.take_append_drop] at e3
    rw [e3, ok_bind, List.drop_eq_getElem_cons (by omega), wr_append rfl, ok_bind]
    simp
    omega
  · rw [if_neg (fun h => h3 (by rw [of_decide_eq_true h]; exact List.take_prefix _ _)), if_neg h3]
    have : A'.length = A.length := by
      rcases Nat.lt_or_ge A'.length A.length with h | h
      · have h' := hs1 h
        exact absurd (by rw [List.length_eq_zero_iff.1 h']; exact List.nil_prefix) h3
      · omega
    rw [this]; rfl

theorem normalizepath_any_holds {s junk : List Byte} (stack : Nat → Byte) (h0 : (0 : Byte) ∉ s) (hs : room s ≤ PATH_MAX) :
    ∃ j r, normalizepath stack ⟨s ++ 0 :: junk, s.length⟩ =
      .ok (⟨(normalize s).getD s ++ j, ((normalize s).getD s).length⟩, r) := by
  rw [normalizepath_any stack h0, if_pos hs]
  cases normalize s with
  | none => exact ⟨_, _, rfl⟩
  | some x => exact ⟨_, _, rfl⟩

end Ulz.Pathroom
