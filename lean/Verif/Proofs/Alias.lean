import Verif.Model.Alias
import Verif.Proofs.Sblist
import Verif.Proofs.Tglist
/-! Lemmas for the lists that are handed their own items. -/
namespace Ulz.Alias
open Ulz.Sblist (SB)
open Ulz.Tglist (TG)

@[simp] theorem lift_ok {α : Type} (x : α) : lift (.ok x : C α) = .ok x := rfl

theorem aok_bind {α β : Type} (x : α) (f : α → A β) : ((.ok x : A α) >>= f) = f x := rfl

/-! ### sblist -/

theorem get_some {l : SB} {xs} (h : Sblist.Spec.Rep l xs) (hb : l.count * l.itemsize < 2^64) {i o : Nat}
    (hg : Sblist.get l i = some o) : i < xs.length ∧ o = i * l.itemsize := by
  unfold Sblist.get at hg
  split at hg
  · rename_i hi
    rw [szt_of_lt (Sblist.mul_lt_of hb (by omega))] at hg
    cases hg
    exact ⟨by rw [← h.count]; exact hi, rfl⟩
  · cases hg

theorem read {l : SB} {xs} (h : Sblist.Spec.Rep l xs) (hb : l.count * l.itemsize < 2^64) {i : Nat}
    (hi : i < xs.length) : rdN l.items (i * l.itemsize) l.itemsize = .ok xs[i] := by
  have := Sblist.deref_get h hb hi
  rw [show Sblist.get l i = some (szt (i * l.itemsize)) from by simp [Sblist.get, h.count, hi],
    szt_of_lt (Sblist.mul_lt_of hb (by rw [h.count]; omega))] at this
  exact this

/-- Items at different indices do not overlap. -/
theorem apart {k i j : Nat} (h : i ≠ j) : ¬ (i * k < j * k + k ∧ j * k < i * k + k) := by
  rintro ⟨h1, h2⟩
  rw [← Nat.succ_mul] at h1 h2
  have a := Nat.lt_of_mul_lt_mul_right h1
  have b := Nat.lt_of_mul_lt_mul_right h2
  omega

theorem sbset_own {l : SB} {xs} (h : Sblist.Spec.Rep l xs) (hb : l.count * l.itemsize < 2^64) {i pos : Nat}
    (hi : i < xs.length) (hp : pos < xs.length) (hne : i ≠ pos) :
    sbset l (.own (i * l.itemsize)) pos = lift (Sblist.set l xs[i] pos) := by
  have hp' : pos < l.count := by rw [h.count]; exact hp
  unfold sbset Sblist.set
  rw [if_neg (by omega), if_neg (by omega), szt_of_lt (Sblist.mul_lt_of hb (by omega))]
  simp only
  rw [if_neg (apart hne), read h hb hi, rdN_all (h.item _ (List.getElem_mem _))]

theorem sbset_same {l : SB} {xs} (h : Sblist.Spec.Rep l xs) (hb : l.count * l.itemsize < 2^64) {i : Nat}
    (hi : i < xs.length) : sbset l (.own (i * l.itemsize)) i = .error .overlap := by
  have hp' : i < l.count := by rw [h.count]; exact hi
  unfold sbset
  rw [if_neg (by omega), szt_of_lt (Sblist.mul_lt_of hb (by omega))]
  simp only
  rw [if_pos ⟨by have := h.isz; omega, by have := h.isz; omega⟩]

/-- The slot behind the list becomes an item: its value is whatever the buffer holds there. -/
theorem extend {l : SB} {xs} (h : Sblist.Spec.Rep l xs) (hc : l.count < l.capa) :
    ∃ g, Sblist.Spec.Rep { l with count := l.count + 1 } (xs ++ [g]) := by
  obtain ⟨slack, b1, b2⟩ := h.buf
  have hs : l.itemsize ≤ slack.length := by
    rw [b2]; exact Nat.le_mul_of_pos_left _ (by omega)
  refine ⟨slack.take l.itemsize, h.isz, by simp [h.count], ?_, hc, slack.drop l.itemsize, ?_, ?_⟩
  · intro y hy
    rcases List.mem_append.1 hy with hy | hy
    · exact h.item y hy
    · simp at hy; subst hy; simp [hs]
  · simp [b1]
  · simp only [List.length_drop, b2]
    rw [show l.capa - (l.count + 1) = l.capa - l.count - 1 by omega, Nat.sub_mul (_ - _), Nat.one_mul]

/-- Making room at `pos`: the buffer holds the items with a gap; the gap holds the old item. -/
theorem shift {l : SB} {xs} (h : Sblist.Spec.Rep l xs) (hc : l.count < l.capa)
    (hb : (l.count + 1) * l.itemsize < 2^64) {pos : Nat} (hp : pos ≤ xs.length) :
    ∃ items g, memmove l.items (szt ((pos + 1) * l.itemsize)) (szt (pos * l.itemsize))
        (szt (sztSub l.count pos * l.itemsize)) = .ok items ∧
      Sblist.Spec.Rep { l with items := items, count := l.count + 1 } (xs.take pos ++ g :: xs.drop pos) ∧
      (∀ hp : pos < xs.length, g = xs[pos]) := by
  have hpc : pos ≤ l.count := by rw [h.count]; exact hp
  have hc64 : l.count < 2^64 := by
    have : l.count * 1 ≤ (l.count + 1) * l.itemsize := Nat.mul_le_mul (by omega) h.isz
    omega
  obtain ⟨slack, b1, b2⟩ := h.buf
  obtain ⟨a1, a2, a3⟩ := Sblist.flatten_split h.item (pos := pos) hp
  have hs : l.itemsize ≤ slack.length := by
    rw [b2]; exact Nat.le_mul_of_pos_left _ (by omega)
  rw [szt_of_lt (Sblist.mul_lt_of hb (by omega)), szt_of_lt (Sblist.mul_lt_of hb (by omega)), sztSub_of_le hpc hc64,
    szt_of_lt (Sblist.mul_lt_of hb (by omega))]
  rw [b1, a3, memmove_up (k := l.itemsize) a1.symm (by rw [a1, Nat.add_mul, Nat.one_mul])
    (by rw [a2, h.count]) hs]
  refine ⟨_, ((xs.drop pos).flatten ++ slack).take l.itemsize, rfl,
    ⟨h.isz, ?_, ?_, hc, slack.drop l.itemsize, by simp, ?_⟩, ?_⟩
  · simp [h.count]; omega
  · intro y hy
    rcases List.mem_append.1 hy with hy | hy
    · exact h.item y (List.mem_of_mem_take hy)
    · rcases List.mem_cons.1 hy with rfl | hy
      · simp; omega
      · exact h.item y (List.mem_of_mem_drop hy)
  · simp only [List.length_drop, b2]
    rw [show l.capa - (l.count + 1) = l.capa - l.count - 1 by omega, Nat.sub_mul (_ - _), Nat.one_mul]
  · intro hp
    rw [List.drop_eq_getElem_cons hp, List.flatten_cons, List.append_assoc,
      List.take_append_of_le_length (by rw [h.item _ (List.getElem_mem _)]; exact Nat.le_refl _),
      List.take_of_length_le (by rw [h.item _ (List.getElem_mem _)]; exact Nat.le_refl _)]

theorem gap_length {α} {xs : List α} {pos : Nat} {g : α} (hp : pos ≤ xs.length) :
    (xs.take pos ++ g :: xs.drop pos).length = xs.length + 1 := by simp; omega

theorem gap_set {α} {xs : List α} {pos : Nat} {g x : α} (hp : pos ≤ xs.length) :
    (xs.take pos ++ g :: xs.drop pos).set pos x = xs.take pos ++ x :: xs.drop pos := by
  rw [List.set_append_right _ _ (by simp; omega)]
  simp [Nat.min_eq_left hp]

theorem gap_get {α} {xs : List α} {pos i : Nat} {g : α} (hp : pos ≤ xs.length) (hi : i < xs.length)
    (h : i < (xs.take pos ++ g :: xs.drop pos).length) :
    (i < pos → (xs.take pos ++ g :: xs.drop pos)[i] = xs[i]) ∧
    (i = pos → (xs.take pos ++ g :: xs.drop pos)[i] = g) ∧
    (pos < i → (xs.take pos ++ g :: xs.drop pos)[i] = xs[i - 1]) := by
  refine ⟨fun hlt => ?_, fun he => ?_, fun hgt => ?_⟩
  · rw [List.getElem_append_left (by simp; omega)]; simp
  · subst he
    rw [List.getElem_append_right (by simp; omega)]
    simp [Nat.min_eq_left hp]
  · rw [List.getElem_append_right (by simp; omega)]
    simp only [List.length_take, Nat.min_eq_left hp]
    obtain ⟨d, rfl⟩ : ∃ d, i = pos + 1 + d := ⟨i - pos - 1, by omega⟩
    simp only [show pos + 1 + d - pos = d + 1 from by omega, List.getElem_cons_succ, List.getElem_drop]
    congr 1; omega

theorem grow_moved {l : SB} (hc : l.count = l.capa) (f : Nat → Byte) :
    (Sblist.grow_if_needed (some f) l).2 = 1 ∧ (Sblist.grow_if_needed (some f) l).1.count = l.count := by
  simp [Sblist.grow_if_needed, hc, Ulz.realloc]

/-- In a strictly ordered list the search for an item of the list ends at that item. -/
theorem sortedPos_self {l : SB} {xs} (h : Sblist.Spec.Rep l xs) (hb : l.count * l.itemsize < 2^64)
    {cmp : List Byte → List Byte → Int} (hc : Sblist.Spec.TotalPreorder cmp)
    (hs : xs.Pairwise fun a b => cmp a b < 0) {i : Nat} (hi : i < xs.length) :
    ∀ fuel hi' lo, hi' ≤ i → i ≤ lo → lo < xs.length → lo - hi' < fuel →
      Sblist.sortedPos l xs[i] cmp fuel hi' lo = .ok i := by
  have hlt : ∀ a b (hb : b < xs.length), (hab : a < b) → cmp (xs[a]'(by omega)) xs[b] < 0 :=
    fun a b hb hab => List.pairwise_iff_getElem.1 hs a b (by omega) hb hab
  intro fuel
  induction fuel with
  | zero => intro hi' lo _ _ _ hf; omega
  | succ fuel ih =>
    intro hi' lo h1 h2 h3 hf
    unfold Sblist.sortedPos
    have hcx : hi' + (lo - hi') / 2 < xs.length := by omega
    dsimp only
    rw [Sblist.deref_get h hb hcx]
    simp only [ok_bind]
    by_cases he : hi' = lo
    · have e1 : hi' = i := by omega
      have e2 : lo = i := by omega
      subst e1; subst e2
      rw [if_pos rfl]
      simp [hc.refl]
    · rw [if_neg he]
      rcases Nat.lt_trichotomy i (hi' + (lo - hi') / 2) with hlc | hec | hgc
      · have := hlt i _ hcx hlc
        rw [if_pos this]
        simp only
        rw [if_pos (show hi' + (lo - hi') / 2 ≠ 0 by omega), if_neg (show ¬ hi' > hi' + (lo - hi') / 2 - 1 by omega)]
        exact ih _ _ h1 (by omega) (by omega) (by omega)
      · have hz : cmp xs[i] xs[hi' + (lo - hi') / 2] = 0 := by
          simp only [← hec, hc.refl]
        rw [hz]
        simp only [show ¬ (0 : Int) < 0 by omega, if_false,
          show ¬ (hi' + (lo - hi') / 2 > hi' + (lo - hi') / 2) by omega]
        rw [← hec]
        exact ih _ _ (Nat.le_refl _) (Nat.le_refl _) hi (by omega)
      · have hgt : cmp xs[i] xs[hi' + (lo - hi') / 2] > 0 := (hc.flip _ _).1 (hlt _ i hi hgc)
        rw [if_neg (show ¬ cmp xs[i] xs[hi' + (lo - hi') / 2] < 0 by omega), if_pos hgt]
        simp only
        rw [if_neg (show ¬ hi' + (lo - hi') / 2 + 1 > lo by omega)]
        exact ih _ _ (by omega) h2 h3 (by omega)

theorem sortedIndex_self {l : SB} {xs} (h : Sblist.Spec.Rep l xs) (hb : l.count * l.itemsize < 2^64)
    {cmp : List Byte → List Byte → Int} (hc : Sblist.Spec.TotalPreorder cmp)
    (hs : xs.Pairwise fun a b => cmp a b < 0) {i : Nat} (hi : i < xs.length) :
    Sblist.sortedIndex l xs[i] cmp = .ok i := by
  unfold Sblist.sortedIndex
  have := h.count
  rw [if_neg (by omega)]
  exact sortedPos_self h hb hc hs hi _ _ _ (by omega) (by omega) (by omega) (by omega)

/-! ### tglist -/

/-- The slot behind the list becomes an item. -/
theorem textend {isz} {l : TG} {xs} (h : Tglist.Spec.Rep isz l xs) (hc : l.count < l.capa) :
    Tglist.Spec.Rep isz { l with count := l.count + 1 } (xs ++ [(l.items.drop (l.count * isz)).take isz]) := by
  obtain ⟨slack, b1, b2⟩ := h.buf
  have hs : isz ≤ slack.length := by
    rw [b2]; exact Nat.le_mul_of_pos_left _ (by omega)
  have e : l.items.drop (l.count * isz) = slack := by
    rw [b1, List.drop_append, List.drop_eq_nil_of_le (by rw [flatten_length h.item, h.count]; exact Nat.le_refl _),
      flatten_length h.item, h.count]
    simp
  rw [e]
  refine ⟨h.pos, by simp [h.count], ?_, hc, slack.drop isz, ?_, ?_⟩
  · intro y hy
    rcases List.mem_append.1 hy with hy | hy
    · exact h.item y hy
    · simp at hy; subst hy; simp [hs]
  · simp [b1]
  · simp only [List.length_drop, b2]
    rw [show l.capa - (l.count + 1) = l.capa - l.count - 1 by omega, Nat.sub_mul (_ - _), Nat.one_mul]

theorem tshift {isz} {l : TG} {xs} (h : Tglist.Spec.Rep isz l xs) (hc : l.count < l.capa)
    (hb' : (l.count + 1) * isz < 2^64) {pos : Nat} (hp : pos ≤ xs.length) :
    ∃ l1 g, Tglist.memmove_impl isz l (pos + 1) (-1) = .ok l1 ∧ l1.count = l.count ∧
      Tglist.Spec.Rep isz { l1 with count := l1.count + 1 } (xs.take pos ++ g :: xs.drop pos) ∧
      (∀ hp : pos < xs.length, g = xs[pos]) := by
  have hpc : pos ≤ l.count := by rw [h.count]; exact hp
  have hc64 : l.count < 2^64 := by
    have : l.count * 1 ≤ (l.count + 1) * isz := Nat.mul_le_mul (by omega) h.pos
    omega
  have hi64 : isz < 2^64 := by
    have : 1 * isz ≤ (l.count + 1) * isz := Nat.mul_le_mul_right _ (by omega)
    omega
  obtain ⟨slack, b1, b2⟩ := h.buf
  obtain ⟨a1, a2, a3⟩ := Sblist.flatten_split h.item (pos := pos) hp
  have hs : isz ≤ slack.length := by
    rw [b2]; exact Nat.le_mul_of_pos_left _ (by omega)
  unfold Tglist.memmove_impl
  dsimp only
  rw [show Int.toNat ((-1) % 2^64) = 2^64 - 1 from by decide]
  have e1 : szt (isz * (2^64 - 1)) = 2^64 - isz := by
    unfold szt
    have : isz * (2^64 - 1) = 2^64 * (isz - 1) + (2^64 - isz) := by have := h.pos; omega
    rw [this, Nat.mul_add_mod]; exact Nat.mod_eq_of_lt (by have := h.pos; omega)
  have hd : szt ((pos + 1) * isz) = pos * isz + isz := by
    rw [szt_of_lt (Sblist.mul_lt_of hb' (by omega)), Nat.add_mul, Nat.one_mul]
  have hpb := Sblist.mul_lt_of hb' (show pos ≤ l.count + 1 by omega)
  have e2 : szt (pos * isz + isz + (2^64 - isz)) = pos * isz := by unfold szt; omega
  have e3 : szt (pos + 1 + (2^64 - 1)) = pos := by unfold szt; omega
  rw [e1, hd, e2, e3, sztSub_of_le hpc hc64, szt_of_lt (Sblist.mul_lt_of hb' (by omega))]
  rw [b1, a3, memmove_up (k := isz) a1.symm (by rw [a1]) (by rw [a2, h.count]) hs]
  simp only [ok_bind, pure_eq_ok]
  refine ⟨_, ((xs.drop pos).flatten ++ slack).take isz, rfl, rfl,
    ⟨h.pos, ?_, ?_, hc, slack.drop isz, by simp, ?_⟩, ?_⟩
  · simp [h.count]; omega
  · intro y hy
    rcases List.mem_append.1 hy with hy | hy
    · exact h.item y (List.mem_of_mem_take hy)
    · rcases List.mem_cons.1 hy with rfl | hy
      · simp; omega
      · exact h.item y (List.mem_of_mem_drop hy)
  · simp only [List.length_drop, b2]
    rw [show l.capa - (l.count + 1) = l.capa - l.count - 1 by omega, Nat.sub_mul (_ - _), Nat.one_mul]
  · intro hp
    rw [List.drop_eq_getElem_cons hp, List.flatten_cons, List.append_assoc,
      List.take_append_of_le_length (by rw [h.item _ (List.getElem_mem _)]; exact Nat.le_refl _),
      List.take_of_length_le (by rw [h.item _ (List.getElem_mem _)]; exact Nat.le_refl _)]

end Ulz.Alias
