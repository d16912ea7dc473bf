import Verif.Spec.Stress
import Verif.Proofs.Sblist
import Verif.Proofs.Tglist
import Verif.Proofs.Frame
import Mathlib.Tactic.ByContra
/-! Lemmas about the programs that test the lists. -/
namespace Ulz.Stress
open Ulz.Stress.Spec

theorem size_ge (D : Nat) : D ≤ size D := by unfold size; omega

theorem bytes_length {D x y : Nat} {data : List Byte} (hD : 8 < D) (hd : data.length = D - 8) : (bytes D x y data).length = size D := by
  have := size_ge D
  simp only [bytes, List.length_append, Tglist.leBytes_length, List.length_replicate, hd]; omega

/-- The item with number `j`. -/
def Has (x : List Byte) (j : Nat) : Prop := ∃ z, x = Tglist.leBytes 4 (2 * j) ++ Tglist.leBytes 4 (2 * j + 1) ++ z

theorem incr_ok {o : Nat} (h : o + 1 < 2^31) : incr o = .ok (o + 1) := if_pos h

theorem incr_over {o : Nat} (h : ¬o + 1 < 2^31) : incr o = .error .overflow := if_neg h

theorem make_ok {D : Nat} {data : List Byte} {r x y : Nat} {d : Option Byte} (h0 : 0 < data.length) (hd : d ≠ none) :
    ∃ data', make_struct D data r x y d = .ok (data', bytes D x y data') ∧ data'.length = data.length := by
  cases d with
  | none => exact absurd rfl hd
  | some c =>
    refine ⟨data.set (r % data.length) c, ?_, List.length_set⟩
    unfold make_struct
    rw [if_neg (by omega)]
    simp only [wr_ok (Nat.mod_lt r h0), ok_bindE, pure_eq_ok]

theorem make_null {D : Nat} {data : List Byte} {r x y : Nat} (h0 : 0 < data.length) : make_struct D data r x y none = .error .nullDeref := by
  unfold make_struct
  rw [if_neg (by omega)]

section
variable {L : Type} {add : Alloc → L → List Byte → C (L × Nat)} {D : Nat} {e : Env} {R : L → List (List Byte) → Prop} {need : Nat → Prop}

/-- What is needed of an `add`: it fails exactly if memory is needed and missing. -/
structure Adds (add : Alloc → L → List Byte → C (L × Nat)) (D : Nat) (R : L → List (List Byte) → Prop) (need : Nat → Prop) : Prop where
  fail : ∀ {l xs a x}, R l xs → x.length = size D → xs.length < 2^30 → need xs.length → a = none → add a l x = .ok (l, 0)
  ok : ∀ {l xs a x}, R l xs → x.length = size D → xs.length < 2^30 → ¬(need xs.length ∧ a = none) → ∃ l', add a l x = .ok (l', 1) ∧ R l' (xs ++ [x])

theorem fill_step_eq {k i : Nat} {data : List Byte} {d : Option Byte} {l : L} (hi : i + 1 < 2^30) (h0 : 0 < data.length)
    (hd : (if i % 4 = 0 then e.dist i else d) ≠ none) :
    ∃ data', data'.length = data.length ∧ fillLoop add D e (k + 1) i (2 * i) data d l =
      (add (e.mem i) l (bytes D (2 * i) (2 * i + 1) data') >>= fun p => fillLoop add D e k (i + 1) (2 * (i + 1)) data' (if i % 4 = 0 then e.dist i else d) p.1) := by
  obtain ⟨data', m1, m2⟩ := make_ok (D := D) (r := e.rnd i) (x := 2 * i) (y := 2 * i + 1) h0 hd
  refine ⟨data', m2, ?_⟩
  rw [fillLoop]
  simp only [incr_ok (show 2 * i + 1 < 2^31 by omega), incr_ok (show 2 * i + 1 + 1 < 2^31 by omega), ok_bindE, m1]
  rw [show 2 * (i + 1) = 2 * i + 1 + 1 by omega]

theorem fill_null {k i : Nat} {data : List Byte} {d : Option Byte} {l : L} (hi : i + 1 < 2^30) (h0 : 0 < data.length)
    (hd : (if i % 4 = 0 then e.dist i else d) = none) : fillLoop add D e (k + 1) i (2 * i) data d l = .error .nullDeref := by
  rw [fillLoop]
  simp only [incr_ok (show 2 * i + 1 < 2^31 by omega), incr_ok (show 2 * i + 1 + 1 < 2^31 by omega), ok_bindE, hd, make_null h0, error_bind]

/-- How the list stands after `i` rounds. -/
def Good (xs : List (List Byte)) (i : Nat) : Prop := xs.length = i ∧ ∀ j (h : j < xs.length), Has xs[j] j

/-- How it stands if memory was missing. -/
def Bad (need : Nat → Prop) (xs : List (List Byte)) (i : Nat) : Prop :=
  ∃ j, j < i ∧ j ≤ xs.length ∧ (∀ m (h : m < xs.length), m < j → Has xs[m] m) ∧ (∀ h : j < xs.length, ∃ m, j < m ∧ m < i ∧ Has xs[j] m) ∧ (j = xs.length → need j)

theorem has_bytes (i : Nat) (data : List Byte) : Has (bytes D (2 * i) (2 * i + 1) data) i :=
  ⟨data ++ List.replicate (size D - D) 0, by simp [bytes]⟩

theorem good_add {xs : List (List Byte)} {i : Nat} (h : Good xs i) (data : List Byte) : Good (xs ++ [bytes D (2 * i) (2 * i + 1) data]) (i + 1) := by
  refine ⟨by simp [h.1], fun j hj => ?_⟩
  by_cases e : j < xs.length
  · rw [List.getElem_append_left e]; exact h.2 j e
  · have : j = xs.length := by simp at hj; omega
    subst this
    rw [List.getElem_concat_length rfl, h.1]; exact has_bytes _ _

theorem good_bad {xs : List (List Byte)} {i : Nat} (h : Good xs i) (hn : need i) : Bad need xs (i + 1) :=
  ⟨i, by omega, by rw [h.1]; exact Nat.le_refl _, fun m hm _ => h.2 m hm, fun hh => absurd hh (by rw [h.1]; omega), fun _ => hn⟩

theorem bad_add {xs : List (List Byte)} {i : Nat} (h : Bad need xs i) (data : List Byte) : Bad need (xs ++ [bytes D (2 * i) (2 * i + 1) data]) (i + 1) := by
  obtain ⟨j, a1, a2, a3, a4, a5⟩ := h
  refine ⟨j, by omega, by simp; omega, fun m hm hmj => ?_, fun hh => ?_, fun hh => absurd hh (by simp; omega)⟩
  · rw [List.getElem_append_left (by omega)]; exact a3 m (by omega) hmj
  · by_cases e : j < xs.length
    · rw [List.getElem_append_left e]
      obtain ⟨m, b1, b2, b3⟩ := a4 e
      exact ⟨m, b1, by omega, b3⟩
    · have : j = xs.length := by omega
      subst this
      refine ⟨i, a1, by omega, ?_⟩
      rw [List.getElem_concat_length rfl]
      exact has_bytes _ _

theorem bad_keep {xs : List (List Byte)} {i : Nat} (h : Bad need xs i) : Bad need xs (i + 1) := by
  obtain ⟨j, a1, a2, a3, a4, a5⟩ := h
  exact ⟨j, by omega, a2, a3, fun hh => by obtain ⟨m, b1, b2, b3⟩ := a4 hh; exact ⟨m, b1, by omega, b3⟩, a5⟩

theorem fill_bad (ha : Adds add D R need) (hD : 8 < D) : ∀ (k i : Nat) {data : List Byte} {d : Option Byte} {l : L} {xs : List (List Byte)},
    i + k < 2^30 → data.length = D - 8 → (∀ j, i ≤ j → j < i + k → j % 4 = 0 → e.dist j ≠ none) → (i % 4 ≠ 0 → d ≠ none) → R l xs → xs.length ≤ i → Bad need xs i →
    ∃ l' data' xs', fillLoop add D e k i (2 * i) data d l = .ok (l', data') ∧ data'.length = D - 8 ∧ R l' xs' ∧ xs'.length ≤ i + k ∧ Bad need xs' (i + k)
  | 0, i, data, d, l, xs, _, hl, _, _, hr, hx, hb => ⟨l, data, xs, rfl, hl, hr, hx, hb⟩
  | k + 1, i, data, d, l, xs, hi, hl, hdi, hd, hr, hx, hb => by
    have hd' : (if i % 4 = 0 then e.dist i else d) ≠ none := by
      split
      · rename_i h; exact hdi i (Nat.le_refl _) (by omega) h
      · rename_i h; exact hd h
    obtain ⟨data', m1, m2⟩ := fill_step_eq (add := add) (D := D) (k := k) (l := l) (show i + 1 < 2^30 by omega) (by rw [hl]; omega) hd'
    rw [m2, show i + (k + 1) = (i + 1) + k by omega]
    have hlen := bytes_length (D := D) (x := 2 * i) (y := 2 * i + 1) (data := data') hD (by rw [m1, hl])
    by_cases hf : need xs.length ∧ e.mem i = none
    · rw [ha.fail hr hlen (by omega) hf.1 hf.2, ok_bindE]
      exact fill_bad ha hD k (i + 1) (by omega) (by rw [m1, hl]) (fun j h1 h2 => hdi j (by omega) (by omega)) (fun _ => hd') hr (by omega) (bad_keep hb)
    · obtain ⟨l', b1, b2⟩ := ha.ok hr hlen (by omega) hf
      rw [b1, ok_bindE]
      exact fill_bad ha hD k (i + 1) (by omega) (by rw [m1, hl]) (fun j h1 h2 => hdi j (by omega) (by omega)) (fun _ => hd') b2 (by simp; omega) (bad_add hb _)

theorem fill_good (ha : Adds add D R need) (hD : 8 < D) : ∀ (k i : Nat) {data : List Byte} {d : Option Byte} {l : L} {xs : List (List Byte)},
    i + k < 2^30 → data.length = D - 8 → (∀ j, i ≤ j → j < i + k → j % 4 = 0 → e.dist j ≠ none) → (i % 4 ≠ 0 → d ≠ none) → R l xs → Good xs i →
    ∃ l' data' xs', fillLoop add D e k i (2 * i) data d l = .ok (l', data') ∧ data'.length = D - 8 ∧ R l' xs' ∧ xs'.length ≤ i + k ∧
      ((Good xs' (i + k) ∧ ∀ j, i ≤ j → j < i + k → need j → e.mem j ≠ none) ∨ (Bad need xs' (i + k) ∧ ∃ j, i ≤ j ∧ j < i + k ∧ need j ∧ e.mem j = none))
  | 0, i, data, d, l, xs, _, hl, _, _, hr, hg => ⟨l, data, xs, rfl, hl, hr, Nat.le_of_eq hg.1, Or.inl ⟨hg, fun j h1 h2 => by omega⟩⟩
  | k + 1, i, data, d, l, xs, hi, hl, hdi, hd, hr, hg => by
    have hd' : (if i % 4 = 0 then e.dist i else d) ≠ none := by
      split
      · rename_i h; exact hdi i (Nat.le_refl _) (by omega) h
      · rename_i h; exact hd h
    obtain ⟨data', m1, m2⟩ := fill_step_eq (add := add) (D := D) (k := k) (l := l) (show i + 1 < 2^30 by omega) (by rw [hl]; omega) hd'
    rw [m2, show i + (k + 1) = (i + 1) + k by omega]
    have hlen := bytes_length (D := D) (x := 2 * i) (y := 2 * i + 1) (data := data') hD (by rw [m1, hl])
    have hxi := hg.1
    by_cases hf : need i ∧ e.mem i = none
    · rw [ha.fail hr hlen (by omega) (by rw [hxi]; exact hf.1) hf.2, ok_bindE]
      obtain ⟨l', d', xs', c1, c2, c3, c4, c5⟩ := fill_bad (e := e) ha hD k (i + 1) (data := data') (d := if i % 4 = 0 then e.dist i else d) (by omega) (by rw [m1, hl])
        (fun j h1 h2 => hdi j (by omega) (by omega)) (fun _ => hd') hr (by omega) (good_bad hg hf.1)
      exact ⟨l', d', xs', c1, c2, c3, c4, Or.inr ⟨c5, i, Nat.le_refl _, by omega, hf.1, hf.2⟩⟩
    · obtain ⟨l1, b1, b2⟩ := ha.ok hr hlen (by omega) (by rw [hxi]; exact hf)
      rw [b1, ok_bindE]
      obtain ⟨l', d', xs', c1, c2, c3, c4, c5⟩ := fill_good ha hD k (i + 1) (data := data') (d := if i % 4 = 0 then e.dist i else d) (by omega) (by rw [m1, hl])
        (fun j h1 h2 => hdi j (by omega) (by omega)) (fun _ => hd') b2 (good_add hg _)
      refine ⟨l', d', xs', c1, c2, c3, c4, ?_⟩
      rcases c5 with ⟨g1, g2⟩ | ⟨g1, j, h1, h2, h3, h4⟩
      · refine Or.inl ⟨g1, fun j h1 h2 h3 => ?_⟩
        by_cases e : j = i
        · subst e; exact fun h => hf ⟨h3, h⟩
        · exact g2 j (by omega) h2 h3
      · exact Or.inr ⟨g1, j, by omega, h2, h3, h4⟩

/-- A block is missing, or there are too many rounds: which happens first. -/
theorem fill_err (ha : Adds add D R need) (hD : 8 < D) : ∀ (k i : Nat) {data : List Byte} {d : Option Byte} {l : L} {xs : List (List Byte)},
    i < 2^30 → data.length = D - 8 → (i % 4 ≠ 0 → d ≠ none) → R l xs → xs.length ≤ i →
    ((∃ j, i ≤ j ∧ j < i + k ∧ j + 1 < 2^30 ∧ j % 4 = 0 ∧ e.dist j = none) → fillLoop add D e k i (2 * i) data d l = .error .nullDeref) ∧
    (2^30 ≤ i + k → (∀ j, i ≤ j → j + 1 < 2^30 → j % 4 = 0 → e.dist j ≠ none) → fillLoop add D e k i (2 * i) data d l = .error .overflow)
  | 0, i, data, d, l, xs, hi, _, _, _, _ => ⟨fun ⟨j, h1, h2, _⟩ => by omega, fun h => by omega⟩
  | k + 1, i, data, d, l, xs, hi, hl, hd, hr, hx => by
    by_cases hlast : i + 1 = 2^30
    · refine ⟨fun ⟨j, h1, h2, h3, _⟩ => by omega, fun _ _ => ?_⟩
      rw [fillLoop]
      simp only [incr_ok (show 2 * i + 1 < 2^31 by omega), incr_over (show ¬2 * i + 1 + 1 < 2^31 by omega), ok_bindE, error_bind]
    · by_cases hd' : (if i % 4 = 0 then e.dist i else d) = none
      · refine ⟨fun _ => fill_null (by omega) (by rw [hl]; omega) hd', fun _ h => ?_⟩
        split at hd'
        · rename_i h4; exact absurd hd' (h i (Nat.le_refl _) (by omega) h4)
        · rename_i h4; exact absurd hd' (hd h4)
      · obtain ⟨data', m1, m2⟩ := fill_step_eq (add := add) (D := D) (k := k) (l := l) (show i + 1 < 2^30 by omega) (by rw [hl]; omega) hd'
        rw [m2]
        have hlen := bytes_length (D := D) (x := 2 * i) (y := 2 * i + 1) (data := data') hD (by rw [m1, hl])
        have fin : ∀ (l1 : L) (xs1 : List (List Byte)) (r : Nat), R l1 xs1 → xs1.length ≤ i + 1 → add (e.mem i) l (bytes D (2 * i) (2 * i + 1) data') = .ok (l1, r) →
            ((∃ j, i ≤ j ∧ j < i + (k + 1) ∧ j + 1 < 2^30 ∧ j % 4 = 0 ∧ e.dist j = none) →
              (add (e.mem i) l (bytes D (2 * i) (2 * i + 1) data') >>= fun p => fillLoop add D e k (i + 1) (2 * (i + 1)) data' (if i % 4 = 0 then e.dist i else d) p.1) = .error .nullDeref) ∧
            (2^30 ≤ i + (k + 1) → (∀ j, i ≤ j → j + 1 < 2^30 → j % 4 = 0 → e.dist j ≠ none) →
              (add (e.mem i) l (bytes D (2 * i) (2 * i + 1) data') >>= fun p => fillLoop add D e k (i + 1) (2 * (i + 1)) data' (if i % 4 = 0 then e.dist i else d) p.1) = .error .overflow) := by
          intro l1 xs1 r hr1 hx1 hadd
          rw [hadd, ok_bindE]
          obtain ⟨c1, c2⟩ := fill_err ha hD k (i + 1) (data := data') (d := if i % 4 = 0 then e.dist i else d) (by omega) (by rw [m1, hl]) (fun _ => hd') hr1 hx1
          refine ⟨fun ⟨j, h1, h2, h3, h4, h5⟩ => c1 ⟨j, ?_, by omega, h3, h4, h5⟩, fun h1 h2 => c2 (by omega) fun j h3 => h2 j (by omega)⟩
          by_contra hne
          have : j = i := by omega
          subst this
          rw [if_pos h4] at hd'
          exact hd' h5
        by_cases hf : need xs.length ∧ e.mem i = none
        · exact fin l xs 0 hr (by omega) (ha.fail hr hlen (by omega) hf.1 hf.2)
        · obtain ⟨l1, b1, b2⟩ := ha.ok hr hlen (by omega) hf
          exact fin l1 _ 1 b2 (by simp; omega) b1

end

/-! ### sblist -/

/-- The list, with what it has reserved. -/
structure SR (D b : Nat) (l : Sblist.SB) (xs : List (List Byte)) : Prop where
  rep : Sblist.Spec.Rep l xs
  isz : l.itemsize = size D
  bi : l.blockitems = b
  mult : l.capa % b = 0
  room : l.capa < l.count + b

theorem mod_eq_of {c m b : Nat} (hb : 0 < b) (hm : m % b = 0) (h1 : c ≤ m) (h2 : m < c + b) : c % b = 0 ↔ c = m := by
  constructor
  · intro h
    obtain ⟨p, rfl⟩ := Nat.dvd_of_mod_eq_zero h
    obtain ⟨q, rfl⟩ := Nat.dvd_of_mod_eq_zero hm
    have e1 : p ≤ q := Nat.le_of_mul_le_mul_left h1 hb
    have e2 : q < p + 1 := Nat.lt_of_mul_lt_mul_left (a := b) (by rw [Nat.mul_add, Nat.mul_one]; exact h2)
    rw [show p = q by omega]
  · rintro rfl; exact hm

theorem bound {c b s : Nat} (hc : c < 2^31) (hb : b < 2^31) (hs : s < 2^32) : (c + b) * s < 2^64 := by
  have h1 : (c + b) * s ≤ (2^32 - 2) * s := Nat.mul_le_mul_right _ (by omega)
  omega

theorem sadds {D b : Nat} (hb : 0 < b) (hb' : b < 2^31) (hs : size D < 2^32) : Adds Sblist.add D (SR D b) (fun c => c % b = 0) where
  fail := by
    intro l xs a x h hx hl hn ha
    subst ha
    have hcc : l.count = l.capa := (mod_eq_of hb h.mult h.rep.capa h.room).1 (by rw [h.rep.count]; exact hn)
    unfold Sblist.add Sblist.grow_if_needed
    rw [if_pos hcc]
    rfl
  ok := by
    intro l xs a x h hx hl hn
    have hbd : (l.count + l.blockitems) * l.itemsize < 2^64 := by rw [h.isz, h.bi, h.rep.count]; exact bound (by omega) hb' hs
    have hgrow : ∃ l1, Sblist.grow_if_needed a l = (l1, 1) ∧ Sblist.Spec.Rep l1 xs ∧ l1.count < l1.capa ∧ l1.itemsize = l.itemsize ∧ l1.blockitems = l.blockitems ∧
        l1.capa % b = 0 ∧ l1.capa ≤ l1.count + b := by
      rcases Sblist.grow_spec h.rep (by rw [h.bi]; exact hb) hbd a with ⟨l1, g1, g2, g3, g4, g5, g6⟩ | ⟨g1, g2⟩
      · have hce : l1.count = l.count := by rw [g2.count, h.rep.count]
        refine ⟨l1, g1, g2, g3, g4, g5, ?_⟩
        by_cases hcc : l.count = l.capa
        · rcases g6 with g6 | g6
          · omega
          · rw [g6, h.bi, hce]
            exact ⟨by rw [Nat.add_mod_right, hcc]; exact h.mult, Nat.le_refl _⟩
        · have : l1 = l := by
            unfold Sblist.grow_if_needed at g1
            rw [if_neg hcc] at g1
            exact (Prod.mk.inj g1).1.symm
          rw [this]
          exact ⟨h.mult, Nat.le_of_lt h.room⟩
      · exfalso
        have hcc : l.count ≠ l.capa := fun hcc => hn ⟨by rw [← h.rep.count, hcc]; exact h.mult, g1⟩
        unfold Sblist.grow_if_needed at g2
        rw [if_neg hcc] at g2
        exact absurd (Prod.mk.inj g2).2 (by decide)
    obtain ⟨l1, g1, g2, g3, g4, g5, g6, g7⟩ := hgrow
    have hb2 : (l1.count + 1) * l1.itemsize < 2^64 := by
      rw [g4, h.isz, g2.count]; exact bound (by omega) (by omega) hs
    obtain ⟨l2, s1, s2, s3, s4⟩ := Sblist.add_raw g2 g3 hb2 x (by rw [g4, h.isz]; exact hx)
    have hcap : l2.capa = l1.capa := by
      unfold Sblist.set at s1
      dsimp only at s1
      rw [if_neg (by omega)] at s1
      rw [Frame.bind_ok] at s1
      obtain ⟨v, _, s1⟩ := s1
      rw [Frame.bind_ok] at s1
      obtain ⟨w, _, s1⟩ := s1
      have := congrArg (fun r : C (Sblist.SB × Nat) => match r with | .ok p => p.1.capa | .error _ => 0) s1
      exact this.symm
    refine ⟨l2, ?_, s2, by rw [s3, g4, h.isz], by rw [s4, g5, h.bi], by rw [hcap]; exact g6, ?_⟩
    · unfold Sblist.add
      rw [g1]
      simp only [Nat.one_ne_zero, if_false, Nat.add_sub_cancel]
      exact s1
    · rw [hcap, s2.count, List.length_append, ← g2.count]
      have : [x].length = 1 := rfl
      omega

/-- The two numbers of an item in the middle of the buffer. -/
theorem read_item {items : List Byte} {n : Nat} {x : List Byte} {p j : Nat} (hr : rdN items p n = .ok x) (hx : Has x j) (h8 : 8 ≤ n) (hj : j < 2^30) :
    ∃ a b, rdN items p 4 = .ok a ∧ rdN items (p + 4) 4 = .ok b ∧ Tglist.leVal a = 2 * j ∧ Tglist.leVal b = 2 * j + 1 := by
  obtain ⟨z, rfl⟩ := hx
  unfold rdN at hr ⊢
  split at hr
  · rename_i hl
    have hr := Except.ok.inj hr
    rw [if_pos (by omega), if_pos (by omega)]
    refine ⟨_, _, rfl, rfl, ?_, ?_⟩
    · have : (items.drop p).take 4 = Tglist.leBytes 4 (2 * j) := by
        have := congrArg (List.take 4) hr
        rw [List.take_take, show min 4 n = 4 by omega, List.append_assoc, List.take_left' (Tglist.leBytes_length _ _)] at this
        exact this
      rw [this, Tglist.leVal_leBytes _ _ (by omega)]
    · have : (items.drop (p + 4)).take 4 = Tglist.leBytes 4 (2 * j + 1) := by
        have := congrArg (fun t => (List.drop 4 t).take 4) hr
        rw [List.drop_take, List.take_take, List.drop_drop, show min 4 (n - 4) = 4 by omega, List.append_assoc, List.drop_left' (Tglist.leBytes_length _ _),
          List.take_left' (Tglist.leBytes_length _ _)] at this
        exact this
      rw [this, Tglist.leVal_leBytes _ _ (by omega)]
  · cases hr

theorem sget_item {D b : Nat} {l : Sblist.SB} {xs : List (List Byte)} (h : SR D b l xs) (hs : size D < 2^32) (hl : xs.length < 2^30) (hD : 8 < D) {i j : Nat}
    (hi : i < xs.length) (hx : Has xs[i] j) (hj : j < 2^30) :
    ∃ p u v, Sblist.get l i = some p ∧ rdN l.items p 4 = .ok u ∧ rdN l.items (p + 4) 4 = .ok v ∧ Tglist.leVal u = 2 * j ∧ Tglist.leVal v = 2 * j + 1 := by
  have hd := Sblist.deref_get h.rep (by rw [h.rep.count, h.isz]; exact bound (b := 0) (by omega) (by omega) hs) hi
  cases hg : Sblist.get l i with
  | none => rw [hg] at hd; cases hd
  | some p =>
    rw [hg] at hd
    simp only [Sblist.deref] at hd
    have := size_ge D
    obtain ⟨u, v, r1, r2, r3, r4⟩ := read_item hd hx (by rw [h.isz]; omega) hj
    exact ⟨p, u, v, rfl, r1, r2, r3, r4⟩

theorem check_step {l : Sblist.SB} {k i j p : Nat} {u v : List Byte} (hg : Sblist.get l i = some p) (h1 : rdN l.items p 4 = .ok u) (h2 : rdN l.items (p + 4) 4 = .ok v)
    (h3 : Tglist.leVal u = 2 * j) (h4 : Tglist.leVal v = 2 * j + 1) (hi : i < 2^30 - 1) :
    checkLoop l (k + 1) (2 * i) = if j = i then checkLoop l k (2 * (i + 1)) else .ok none := by
  rw [checkLoop]
  simp only [show 2 * i / 2 = i by omega, hg, h1, ok_bindE, incr_ok (show 2 * i + 1 < 2^31 by omega), h3]
  by_cases e : j = i
  · subst e
    simp only [ne_eq, not_true, if_false, if_true, h2, ok_bindE, incr_ok (show 2 * j + 1 + 1 < 2^31 by omega), h4]
    rw [show 2 * (j + 1) = 2 * j + 1 + 1 by omega]
  · rw [if_pos (by omega), if_neg e]; rfl

theorem check_good {D b : Nat} {l : Sblist.SB} {xs : List (List Byte)} (h : SR D b l xs) (hs : size D < 2^32) (hl : xs.length < 2^30) (hD : 8 < D) {n : Nat} (hg : Good xs n) :
    ∀ (k i : Nat), i + k ≤ n → checkLoop l k (2 * i) = .ok (some (2 * (i + k)))
  | 0, i, _ => rfl
  | k + 1, i, hi => by
    have := hg.1
    have hi' : i < xs.length := by omega
    obtain ⟨p, u, v, r1, r2, r3, r4, r5⟩ := sget_item h hs hl hD hi' (hg.2 i hi') (by omega)
    rw [check_step r1 r2 r3 r4 r5 (by omega), if_pos rfl, check_good h hs hl hD hg k (i + 1) (by omega)]
    congr 3; omega

theorem check_bad {D b n : Nat} {l : Sblist.SB} {xs : List (List Byte)} (h : SR D b l xs) (hs : size D < 2^32) (hl : xs.length < 2^30) (hD : 8 < D) (hn : n < 2^30) {j : Nat}
    (hj : j ≤ xs.length) (h1 : ∀ m (h : m < xs.length), m < j → Has xs[m] m) (h2 : ∀ h : j < xs.length, ∃ m, j < m ∧ m < n ∧ Has xs[j] m) :
    ∀ (k i : Nat), i ≤ j → j < i + k → i + k ≤ n → checkLoop l k (2 * i) = .ok none
  | 0, i, _, _, _ => by omega
  | k + 1, i, hi, hk, hkn => by
    by_cases e : i = j
    · subst e
      by_cases hlt : i < xs.length
      · obtain ⟨m, m1, m2, m3⟩ := h2 hlt
        obtain ⟨p, u, v, r1, r2, r3, r4, r5⟩ := sget_item h hs hl hD hlt m3 (by omega)
        rw [check_step r1 r2 r3 r4 r5 (by omega), if_neg (by omega)]
      · rw [checkLoop]
        have : Sblist.get l (2 * i / 2) = none := by unfold Sblist.get; rw [if_neg (by rw [h.rep.count]; omega)]
        simp only [this]; rfl
    · have hlt : i < xs.length := by omega
      obtain ⟨p, u, v, r1, r2, r3, r4, r5⟩ := sget_item h hs hl hD hlt (h1 i hlt (by omega)) (by omega)
      rw [check_step r1 r2 r3 r4 r5 (by omega), if_pos rfl]
      exact check_bad h hs hl hD hn hj h1 h2 k (i + 1) (by omega) (by omega) (by omega)

/-! ### tglist -/

/-- The list, with what it has reserved. -/
structure TR (D : Nat) (l : Tglist.TG) (xs : List (List Byte)) : Prop where
  rep : Tglist.Spec.Rep (size D) l xs
  cap : (l.capa = 0 ∧ l.count = 0) ∨ (0 < l.count ∧ ∃ k, l.capa = 4 * 2^k ∧ (k = 0 ∨ 2 * 2^k < l.count))

/-- The sizes at which the list needs memory. -/
def Full (c : Nat) : Prop := c = 0 ∨ ∃ k, c = 4 * 2^k

theorem full_iff {D : Nat} {l : Tglist.TG} {xs : List (List Byte)} (h : TR D l xs) : Full xs.length ↔ l.count = l.capa := by
  have hc := h.rep.count
  have hle := h.rep.capa
  constructor
  · intro hf
    rcases h.cap with ⟨h1, h2⟩ | ⟨h0, k, h1, h2⟩
    · omega
    · rcases hf with hf | ⟨m, hm⟩
      · omega
      · have hmk : m ≤ k := by
          by_contra hlt
          have : 2^(k+1) ≤ 2^m := Nat.pow_le_pow_right (by decide) (by omega)
          rw [Nat.pow_succ] at this
          have := Nat.two_pow_pos k
          omega
        by_cases e : m = k
        · subst e; omega
        · exfalso
          have h3 : 2^(m+1) ≤ 2^k := Nat.pow_le_pow_right (by decide) (by omega)
          rw [Nat.pow_succ] at h3
          have := Nat.two_pow_pos m
          omega
  · intro e
    rcases h.cap with ⟨h1, h2⟩ | ⟨h0, k, h1, h2⟩
    · left; omega
    · right; exact ⟨k, by omega⟩

theorem tadds {D : Nat} (hs : size D < 2^32) : Adds (Tglist.add (size D)) D (TR D) Full where
  fail := by
    intro l xs a x h hx hl hn ha
    subst ha
    unfold Tglist.add Tglist.grow_if_needed
    rw [if_pos ((full_iff h).1 hn)]
    rfl
  ok := by
    intro l xs a x h hx hl hn
    have hc := h.rep.count
    have hbd : (2 * l.count + 4) * size D < 2^64 := bound (by omega) (by omega) hs
    have hgrow : ∃ l1, Tglist.grow_if_needed (size D) a l = (l1, 1) ∧ Tglist.Spec.Rep (size D) l1 xs ∧ l1.count < l1.capa ∧
        ∃ k, l1.capa = 4 * 2^k ∧ (k = 0 ∨ 2 * 2^k ≤ l1.count) := by
      rcases Tglist.grow_spec h.rep hbd a with ⟨l1, g1, g2, g3, _⟩ | ⟨g1, g2, g3⟩
      · have hce : l1.count = l.count := by rw [g2.count, h.rep.count]
        refine ⟨l1, g1, g2, g3, ?_⟩
        unfold Tglist.grow_if_needed at g1
        by_cases hcc : l.count = l.capa
        · rw [if_pos hcc] at g1
          cases a with
          | none => exact absurd (Prod.mk.inj g1).2 (by decide)
          | some f =>
            have e : l1.capa = if l.capa = 0 then 4 else szt (l.capa * 2) := by
              rw [← (Prod.mk.inj g1).1]
            rcases h.cap with ⟨h1, h2⟩ | ⟨h0, k, h1, h2⟩
            · exact ⟨0, by rw [e, if_pos h1], Or.inl rfl⟩
            · refine ⟨k + 1, ?_, Or.inr ?_⟩
              · rw [e, if_neg (by omega), szt_of_lt (by omega), h1, Nat.pow_succ]; omega
              · rw [hce, hcc, h1, Nat.pow_succ]; omega
        · rw [if_neg hcc] at g1
          have : l1 = l := (Prod.mk.inj g1).1.symm
          rw [this]
          rcases h.cap with ⟨h1, h2⟩ | ⟨h0, k, h1, h2⟩
          · omega
          · exact ⟨k, h1, by omega⟩
      · exact absurd ⟨(full_iff h).2 g2, g1⟩ hn
    obtain ⟨l1, g1, g2, g3, k, g4, g5⟩ := hgrow
    have hb2 : (l1.count + 1) * size D < 2^64 := by rw [g2.count]; exact bound (by omega) (by omega) hs
    obtain ⟨l2, s1, s2, s3⟩ := Tglist.add_raw g2 g3 hb2 x hx
    have hcnt : l2.count = l1.count + 1 := by rw [s2.count, g2.count, List.length_append]; rfl
    refine ⟨l2, ?_, s2, Or.inr ⟨by omega, k, by rw [s3]; exact g4, by omega⟩⟩
    unfold Tglist.add
    rw [g1]
    simp only [Nat.one_ne_zero, if_false, Nat.add_sub_cancel]
    exact s1

theorem tget_item {D : Nat} {l : Tglist.TG} {xs : List (List Byte)} (h : TR D l xs) (hs : size D < 2^32) (hl : xs.length < 2^30) (hD : 8 < D) {i j : Nat}
    (hi : i < xs.length) (hx : Has xs[i] j) (hj : j < 2^30) :
    ∃ u v, rdN l.items (szt (i * size D)) 4 = .ok u ∧ rdN l.items (szt (i * size D) + 4) 4 = .ok v ∧ Tglist.leVal u = 2 * j ∧ Tglist.leVal v = 2 * j + 1 := by
  have hd := Tglist.get_spec h.rep (by rw [h.rep.count]; exact bound (b := 0) (by omega) (by omega) hs) hi
  have := size_ge D
  exact read_item hd hx (by omega) hj

theorem tcheck_step {D : Nat} {l : Tglist.TG} {k i j : Nat} {u v : List Byte} (h1 : rdN l.items (szt (i * size D)) 4 = .ok u) (h2 : rdN l.items (szt (i * size D) + 4) 4 = .ok v)
    (h3 : Tglist.leVal u = 2 * j) (h4 : Tglist.leVal v = 2 * j + 1) (hi : i < 2^30 - 1) :
    tcheckLoop D l (k + 1) (2 * i) = if j = i then tcheckLoop D l k (2 * (i + 1)) else .ok false := by
  rw [tcheckLoop]
  simp only [show 2 * i / 2 = i by omega, h1, ok_bindE, incr_ok (show 2 * i + 1 < 2^31 by omega), h3]
  by_cases e : j = i
  · subst e
    simp only [ne_eq, not_true, if_false, if_true, h2, ok_bindE, incr_ok (show 2 * j + 1 + 1 < 2^31 by omega), h4]
    rw [show 2 * (j + 1) = 2 * j + 1 + 1 by omega]
  · rw [if_pos (by omega), if_neg e]; rfl

theorem tcheck_good {D : Nat} {l : Tglist.TG} {xs : List (List Byte)} (h : TR D l xs) (hs : size D < 2^32) (hl : xs.length < 2^30) (hD : 8 < D) {n : Nat} (hg : Good xs n) :
    ∀ (k i : Nat), i + k ≤ n → tcheckLoop D l k (2 * i) = .ok true
  | 0, i, _ => rfl
  | k + 1, i, hi => by
    have := hg.1
    have hi' : i < xs.length := by omega
    obtain ⟨u, v, r2, r3, r4, r5⟩ := tget_item h hs hl hD hi' (hg.2 i hi') (by omega)
    rw [tcheck_step r2 r3 r4 r5 (by omega), if_pos rfl, tcheck_good h hs hl hD hg k (i + 1) (by omega)]

theorem tcheck_bad {D n : Nat} {l : Tglist.TG} {xs : List (List Byte)} (h : TR D l xs) (hs : size D < 2^32) (hl : xs.length < 2^30) (hD : 8 < D) (hn : n < 2^30) {j : Nat}
    (hj : j ≤ xs.length) (h1 : ∀ m (h : m < xs.length), m < j → Has xs[m] m) (h2 : ∀ h : j < xs.length, ∃ m, j < m ∧ m < n ∧ Has xs[j] m) (h3 : j = xs.length → Full j) :
    ∀ (k i : Nat), i ≤ j → j < i + k → i + k ≤ n → tcheckLoop D l k (2 * i) = if j < xs.length then .ok false else .error .oobRead
  | 0, i, _, _, _ => by omega
  | k + 1, i, hi, hk, hkn => by
    by_cases e : i = j
    · subst e
      by_cases hlt : i < xs.length
      · obtain ⟨m, m1, m2, m3⟩ := h2 hlt
        obtain ⟨u, v, r2, r3, r4, r5⟩ := tget_item h hs hl hD hlt m3 (by omega)
        rw [tcheck_step r2 r3 r4 r5 (by omega), if_neg (by omega), if_pos hlt]
      · have e1 : i = xs.length := by omega
        have e2 : l.count = l.capa := (full_iff h).1 (e1 ▸ h3 e1)
        rw [if_neg hlt, tcheckLoop]
        have hlen : l.items.length = i * size D := by
          obtain ⟨slack, b1, b2⟩ := h.rep.buf
          rw [b1, List.length_append, b2, e2, Nat.sub_self, Nat.zero_mul, flatten_length h.rep.item, e1]; rfl
        have : rdN l.items (szt (2 * i / 2 * size D)) 4 = .error .oobRead := by
          rw [show 2 * i / 2 = i by omega, szt_of_lt (by have := bound (c := i) (b := 0) (s := size D) (by omega) (by omega) hs; simpa using this)]
          unfold rdN
          rw [if_neg (by omega)]
        simp only [this]; rfl
    · have hlt : i < xs.length := by omega
      obtain ⟨u, v, r2, r3, r4, r5⟩ := tget_item h hs hl hD hlt (h1 i hlt (by omega)) (by omega)
      rw [tcheck_step r2 r3 r4 r5 (by omega), if_pos rfl]
      exact tcheck_bad h hs hl hD hn hj h1 h2 h3 k (i + 1) (by omega) (by omega) (by omega)

/-! ### The programs -/

theorem mulInt_ok {a b : Int} (h0 : 0 ≤ a * b) (h : a * b < 2^30) : mulInt a b = .ok (a * b) := by
  unfold mulInt; rw [if_pos ⟨by omega, by omega⟩]; rfl

theorem toSize_nonneg {n : Int} (h0 : 0 ≤ n) (h : n < 2^31) : toSize n = n.toNat := by
  unfold toSize; rw [Int.emod_eq_of_lt h0 (by omega)]

theorem init_rel {D b : Nat} {blocks : Int} (hD : 8 < D) (h0 : 0 ≤ blocks) (h1 : blocks < 2^31) (hb : blockItems D blocks = b) (hb0 : 0 < b) :
    ∃ l, Sblist.init (size D) (toSize blocks) = .ok l ∧ SR D b l [] := by
  have := size_ge D
  rw [toSize_nonneg h0 h1]
  unfold Sblist.init
  unfold blockItems at hb
  by_cases e : blocks = 0
  · rw [if_pos e] at hb
    rw [if_neg (by simp [e]), if_neg (by omega), hb]
    exact ⟨_, rfl, ⟨by show 0 < size D; omega, rfl, by simp, Nat.le_refl _, [], rfl, by simp⟩, rfl, rfl, Nat.zero_mod _, by show 0 < 0 + b; omega⟩
  · rw [if_neg e] at hb
    rw [if_pos (by omega), hb]
    exact ⟨_, rfl, ⟨by show 0 < size D; omega, rfl, by simp, Nat.le_refl _, [], rfl, by simp⟩, rfl, rfl, Nat.zero_mod _, by show 0 < 0 + b; omega⟩

theorem blockItems_lt {D : Nat} {blocks : Int} (h1 : blocks < 2^31) : blockItems D blocks < 2^31 := by
  unfold blockItems
  split
  · exact Nat.lt_of_le_of_lt (Nat.div_le_self _ _) (by omega)
  · omega

theorem single_spec {D : Nat} {e : Env} {max blocks times : Int} {data : List Byte} (hD : 8 < D) (hs : size D < 2^32) (hd : data.length = D - 8)
    (h0 : 0 ≤ blocks) (h1 : blocks < 2^31) (hb : 0 < blockItems D blocks) (hn0 : 0 ≤ max * times) (hn : max * times < 2^30) (hdist : Disturbed e (max * times).toNat) :
    ∃ r data', test_single D e max blocks times data = .ok (r, data') ∧ data'.length = D - 8 ∧ (r = true ↔ Enough e (max * times).toNat (blockItems D blocks)) := by
  obtain ⟨l, i1, i2⟩ := init_rel hD h0 h1 rfl hb
  generalize hN : (max * times).toNat = n at hdist ⊢
  have hn' : n < 2^30 := by omega
  obtain ⟨l', data', xs', c1, c2, c3, c4, c5⟩ := fill_good (e := e) (sadds hb (blockItems_lt h1) hs) hD n 0 (data := data) (d := none) (by omega) hd
    (fun j _ hj => hdist j (by omega)) (fun h => absurd rfl h) i2 ⟨rfl, fun j h => by simp at h⟩
  rw [Nat.zero_add] at c4 c5
  unfold test_single
  simp only [i1, ok_bindE, mulInt_ok hn0 hn, toSize_nonneg hn0 (by omega : max * times < 2^31), hN]
  rw [show (0 : Nat) = 2 * 0 from rfl, c1, ok_bindE]
  dsimp only
  rcases c5 with ⟨g1, g2⟩ | ⟨⟨j, b1, b2, b3, b4, _⟩, m, q1, q2, q3, q4⟩
  · rw [check_good c3 hs (by omega) hD g1 n 0 (by omega), ok_bindE]
    refine ⟨_, data', rfl, c2, ?_⟩
    have hlen := g1.1
    have : Sblist.get l' (2 * (0 + n) / 2) = none := by
      unfold Sblist.get; rw [if_neg (by rw [c3.rep.count, hlen]; omega)]
    rw [this]
    exact ⟨fun _ i hi hib => g2 i (by omega) hi hib, fun _ => rfl⟩
  · rw [check_bad c3 hs (by omega) hD hn' b2 b3 b4 n 0 (by omega) (by omega) (by omega), ok_bindE]
    exact ⟨false, data', rfl, c2, (by intro h; cases h), fun h => absurd q4 (h m q2 q3)⟩

end Ulz.Stress
