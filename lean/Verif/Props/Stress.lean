import Verif.Proofs.Stress
/-! C209: the stress tests of the lists. -/
namespace Ulz.Props
open Ulz Ulz.Stress Ulz.Stress.Spec

/-- The test of sblist, for any size and number of the items, any block size, any `rand` and any allocator: it passes exactly if the list got the memory it asked
    for, and otherwise aborts; nothing is undefined. -/
theorem sblist_stress_iff {D : Nat} {e : Env} {max blocks times : Int} {data : List Byte} (hD : 8 < D) (hs : size D < 2^32) (hd : data.length = D - 8)
    (h0 : 0 ≤ blocks) (h1 : blocks < 2^31) (hb : 0 < blockItems D blocks) (hn0 : 0 ≤ max * times) (hn : max * times < 2^30) (hdist : Disturbed e (max * times).toNat) :
    ∃ r data', test_single D e max blocks times data = .ok (r, data') ∧ (r = true ↔ Enough e (max * times).toNat (blockItems D blocks)) := by
  obtain ⟨r, d, h1, _, h2⟩ := single_spec hD hs hd h0 h1 hb hn0 hn hdist
  exact ⟨r, d, h1, h2⟩

/-- If the memory between the additions is missing, the program dereferences NULL. -/
theorem sblist_stress_null {D : Nat} {e : Env} {max blocks times : Int} {data : List Byte} (hD : 8 < D) (hs : size D < 2^32) (hd : data.length = D - 8)
    (h0 : 0 ≤ blocks) (h1 : blocks < 2^31) (hb : 0 < blockItems D blocks) (hn0 : 0 ≤ max * times) (hn : max * times < 2^30) (hdist : ¬Disturbed e (max * times).toNat) :
    test_single D e max blocks times data = .error .nullDeref := by
  obtain ⟨l, i1, i2⟩ := init_rel hD h0 h1 rfl hb
  have hj : ∃ j, 0 ≤ j ∧ j < 0 + (max * times).toNat ∧ j + 1 < 2^30 ∧ j % 4 = 0 ∧ e.dist j = none := by
    apply Classical.byContradiction
    intro hne
    apply hdist
    intro i hi h4 hno
    exact hne ⟨i, by omega, by omega, by omega, h4, hno⟩
  unfold test_single
  simp only [i1, ok_bindE, mulInt_ok hn0 hn, toSize_nonneg hn0 (by omega : max * times < 2^31)]
  rw [show (0 : Nat) = 2 * 0 from rfl, (fill_err (e := e) (sadds hb (blockItems_lt h1) hs) hD (max * times).toNat 0 (data := data) (d := none) (by omega) hd
    (fun h => absurd rfl h) i2 (Nat.le_refl _)).1 hj]
  rfl

/-- With 2^30 items or more, or a negative number of them, a counter overflows: however much memory there is, the test cannot pass. -/
theorem sblist_stress_overflow {D : Nat} {e : Env} {max blocks times : Int} {data : List Byte} (hD : 8 < D) (hs : size D < 2^32) (hd : data.length = D - 8)
    (h0 : 0 ≤ blocks) (h1 : blocks < 2^31) (hb : 0 < blockItems D blocks) (hn : max * times < 0 ∨ 2^30 ≤ max * times) (hdist : Disturbed e (2^30)) :
    test_single D e max blocks times data = .error .overflow := by
  obtain ⟨l, i1, i2⟩ := init_rel hD h0 h1 rfl hb
  unfold test_single
  by_cases hm : -2^31 ≤ max * times ∧ max * times < 2^31
  · have e1 : mulInt max times = .ok (max * times) := if_pos hm
    have hsz : 2^30 ≤ 0 + toSize (max * times) := by unfold toSize; omega
    simp only [i1, ok_bindE, e1]
    rw [show (0 : Nat) = 2 * 0 from rfl, (fill_err (e := e) (sadds hb (blockItems_lt h1) hs) hD (toSize (max * times)) 0 (data := data) (d := none) (by omega) hd
      (fun h => absurd rfl h) i2 (Nat.le_refl _)).2 hsz (fun j _ hj h4 => hdist j (by omega) h4)]
    rfl
  · have e1 : mulInt max times = .error .overflow := if_neg hm
    simp only [i1, ok_bindE, e1, error_bind]

/-- With the default block size and items of more than 4096 bytes the list reserves blocks of no items, and the first addition writes outside of its memory. -/
theorem sblist_stress_big {D : Nat} {e : Env} {max times : Int} {data : List Byte} {f : Nat → Byte} {c : Byte} (hD : 4096 < D) (hd : data.length = D - 8)
    (hn0 : 0 < max * times) (hn : max * times < 2^30) (hm : e.mem 0 = some f) (hc : e.dist 0 = some c) :
    test_single D e max 0 times data = .error .oobWrite := by
  have hge := size_ge D
  unfold test_single
  have hi : Sblist.init (size D) (toSize 0) = .ok ⟨size D, 0, 0, 0, []⟩ := by
    unfold Sblist.init
    rw [if_neg (by decide), if_neg (by omega), Nat.div_eq_of_lt (by omega)]
    rfl
  simp only [hi, ok_bindE, mulInt_ok (Int.le_of_lt hn0) hn, toSize_nonneg (Int.le_of_lt hn0) (by omega : max * times < 2^31)]
  obtain ⟨k, hk⟩ : ∃ k, (max * times).toNat = k + 1 := ⟨(max * times).toNat - 1, by omega⟩
  obtain ⟨data', m1, m2⟩ := fill_step_eq (add := Sblist.add) (D := D) (e := e) (k := k) (i := 0) (data := data) (d := none) (l := ⟨size D, 0, 0, 0, []⟩) (by omega) (by rw [hd]; omega)
    (by rw [if_pos rfl, hc]; exact Option.some_ne_none _)
  rw [hk, show (0 : Nat) = 2 * 0 from rfl, m2, hm]
  have hb := bytes_length (D := D) (x := 2 * 0) (y := 2 * 0 + 1) (data := data') (by omega) (by rw [m1, hd])
  have : Sblist.add (some f) ⟨size D, 0, 0, 0, []⟩ (bytes D (2 * 0) (2 * 0 + 1) data') = .error .oobWrite := by
    have hr : rdN (bytes D (2 * 0) (2 * 0 + 1) data') 0 (size D) = .ok (bytes D (2 * 0) (2 * 0 + 1) data') := by
      unfold rdN; rw [if_pos (by omega), List.drop_zero, List.take_of_length_le (by omega)]
    simp only [Sblist.add, Sblist.grow_if_needed, realloc, Sblist.set, if_true, Option.map_some, Nat.one_ne_zero, if_false, Nat.add_zero, Nat.zero_mul, hr, ok_bindE]
    rw [if_neg (by omega)]
    unfold wrN
    rw [if_neg (by rw [hb]; simp [szt]; omega)]
    rfl
  rw [this]; rfl

/-- The program with one argument runs the test for every block size below it (at least for 1), each time with ten times as many items, and passes exactly if the
    list always got its memory. -/
theorem sblist_stress_each {D : Nat} {e : Nat → Env} {max : Int} (hD : 8 < D) (hs : size D < 2^32) (hn0 : 0 ≤ max) (hn : max * 10 < 2^30)
    (hdist : ∀ r, Disturbed (e r) (max * 10).toNat) :
    ∃ b, main D e [max] = .ok b ∧ (b = true ↔ ∀ r : Nat, 1 ≤ r → (r = 1 ∨ (r : Int) < max) → Enough (e r) (max * 10).toNat r) := by
  have key : ∀ (k r : Nat) (data : List Byte), data.length = D - 8 → 1 ≤ r → ((r : Int) < max ∨ r = 1) → (max - r).toNat ≤ k →
      ∃ b, test_each D e max r data = .ok b ∧ (b = true ↔ ∀ q : Nat, r ≤ q → (q = r ∨ (q : Int) < max) → Enough (e q) (max * 10).toNat q) := by
    intro k
    induction k with
    | zero =>
      intro r data hd h1 h2 hk
      have hbi : blockItems D (r : Int) = r := by unfold blockItems; rw [if_neg (by omega)]; exact Int.toNat_natCast _
      obtain ⟨b, d', s1, s2, s3⟩ := single_spec (e := e r) (max := max) (blocks := r) (times := 10) hD hs hd (by omega) (by omega) (by rw [hbi]; omega) (by omega) hn (hdist r)
      rw [hbi] at s3
      refine ⟨b, ?_, s3.trans ⟨fun h q h1 h2 => ?_, fun h => h r (Nat.le_refl _) (Or.inl rfl)⟩⟩
      · rw [test_each, s1, ok_bindE]
        dsimp only
        cases b
        · rfl
        · rw [if_neg (by simp), if_neg (by omega)]; rfl
      · rcases h2 with rfl | h2
        · exact h
        · omega
    | succ k ih =>
      intro r data hd h1 h2 hk
      have hbi : blockItems D (r : Int) = r := by unfold blockItems; rw [if_neg (by omega)]; exact Int.toNat_natCast _
      obtain ⟨b, d', s1, s2, s3⟩ := single_spec (e := e r) (max := max) (blocks := r) (times := 10) hD hs hd (by omega) (by omega) (by rw [hbi]; omega) (by omega) hn (hdist r)
      rw [hbi] at s3
      rw [test_each, s1, ok_bindE]
      dsimp only
      cases b
      · exact ⟨false, rfl, (by intro h; cases h), fun h => s3.2 (h r (Nat.le_refl _) (Or.inl rfl))⟩
      · have hr := s3.1 rfl
        rw [if_neg (by simp)]
        by_cases hlt : (r : Int) + 1 < max
        · rw [if_pos hlt]
          obtain ⟨b, c1, c2⟩ := ih (r + 1) d' s2 (by omega) (Or.inl (by omega)) (by omega)
          refine ⟨b, c1, c2.trans ⟨fun h q h1 h2 => ?_, fun h q h1 h2 => h q (by omega) (Or.inr (by omega))⟩⟩
          by_cases e1 : q = r
          · rw [e1]; exact hr
          · exact h q (by omega) (by omega)
        · rw [if_neg hlt]
          refine ⟨true, rfl, fun _ q h1 h2 => ?_, fun _ => rfl⟩
          rcases h2 with rfl | h2
          · exact hr
          · have : q = r := by omega
            rw [this]; exact hr
  obtain ⟨b, c1, c2⟩ := key (max - 1).toNat 1 (List.replicate (D - 8) 0) (by simp) (Nat.le_refl _) (Or.inr rfl) (by omega)
  exact ⟨b, c1, c2⟩

/-- The test of tglist passes exactly if the list got its memory. If not, it aborts or reads outside of the list's memory, as the list does not check the index. -/
theorem tglist_stress_iff {D : Nat} {e : Env} {max times : Int} (hD : 8 < D) (hs : size D < 2^32) (hn0 : 0 ≤ max * times) (hn : max * times < 2^30)
    (hdist : Disturbed e (max * times).toNat) :
    (EnoughDoubling e (max * times).toNat → ttest_single D e max times = .ok true) ∧
    (¬EnoughDoubling e (max * times).toNat → ttest_single D e max times = .ok false ∨ ttest_single D e max times = .error .oobRead) := by
  have hge := size_ge D
  have i2 : TR D Tglist.init [] := ⟨⟨by omega, rfl, by simp, Nat.le_refl _, [], rfl, by simp [Tglist.init]⟩, Or.inl ⟨rfl, rfl⟩⟩
  generalize hN : (max * times).toNat = n at hdist ⊢
  have hn' : n < 2^30 := by omega
  obtain ⟨l', data', xs', c1, c2, c3, c4, c5⟩ := fill_good (e := e) (tadds hs) hD n 0 (data := List.replicate (D - 8) 0) (d := none) (by omega) (by simp)
    (fun j _ hj => hdist j (by omega)) (fun h => absurd rfl h) i2 ⟨rfl, fun j h => by simp at h⟩
  rw [Nat.zero_add] at c4 c5
  unfold ttest_single
  simp only [ok_bindE, mulInt_ok hn0 hn, toSize_nonneg hn0 (by omega : max * times < 2^31), hN]
  rw [show (0 : Nat) = 2 * 0 from rfl, c1, ok_bindE]
  dsimp only
  rcases c5 with ⟨g1, g2⟩ | ⟨⟨j, b1, b2, b3, b4, b5⟩, m, q1, q2, q3, q4⟩
  · rw [tcheck_good c3 hs (by omega) hD g1 n 0 (by omega)]
    exact ⟨fun _ => rfl, fun h => absurd (fun i hi hf => g2 i (by omega) hi hf) h⟩
  · rw [tcheck_bad c3 hs (by omega) hD hn' b2 b3 b4 b5 n 0 (by omega) (by omega) (by omega)]
    refine ⟨fun h => absurd q4 (h m q2 q3), fun _ => ?_⟩
    split
    · exact Or.inl rfl
    · exact Or.inr rfl

/-- A world in which all goes well, and one in which the second reallocation fails. -/
def goodEnv : Env := ⟨fun i => i * 7, fun _ => some 1, fun _ => some fun _ => 9⟩
def badEnv : Env := ⟨fun i => i * 7, fun _ => some 1, fun i => if i = 4 then none else some fun _ => 9⟩

example : ∃ d, test_single 48 goodEnv 1000 3 10 (List.replicate 40 0) = .ok (true, d) := by
  obtain ⟨r, d, h1, h2⟩ := sblist_stress_iff (e := goodEnv) (max := 1000) (blocks := 3) (times := 10) (D := 48) (data := List.replicate 40 0) (by decide) (by decide) (by simp)
    (by decide) (by decide) (by decide) (by decide) (by decide) (fun i _ _ => by simp [goodEnv])
  exact ⟨d, by rw [h1, h2.2 fun i _ _ => by simp [goodEnv]]⟩

example : ∃ d, test_single 48 badEnv 1000 4 10 (List.replicate 40 0) = .ok (false, d) := by
  obtain ⟨r, d, h1, h2⟩ := sblist_stress_iff (e := badEnv) (max := 1000) (blocks := 4) (times := 10) (D := 48) (data := List.replicate 40 0) (by decide) (by decide) (by simp)
    (by decide) (by decide) (by decide) (by decide) (by decide) (fun i _ _ => by simp [badEnv])
  refine ⟨d, ?_⟩
  cases r with
  | false => exact h1
  | true => exact absurd (h2.1 rfl 4 (by decide) (by decide)) (by simp [badEnv])

example : test_single 48 goodEnv (-1) 4 1 (List.replicate 40 0) = .error .overflow :=
  sblist_stress_overflow (by decide) (by decide) (by simp) (by decide) (by decide) (by decide) (Or.inl (by decide)) (fun i _ _ => by simp [goodEnv])

example : test_single 48 ⟨fun _ => 0, fun i => if i = 8 then none else some 0, fun _ => none⟩ 100 0 1 (List.replicate 40 0) = .error .nullDeref :=
  sblist_stress_null (by decide) (by decide) (by simp) (by decide) (by decide) (by decide) (by decide) (by decide) (fun h => h 8 (by decide) (by decide) (by simp))

example : test_single 5000 goodEnv 1 0 1 (List.replicate 4992 0) = .error .oobWrite :=
  sblist_stress_big (f := fun _ => 9) (c := 1) (by decide) List.length_replicate (by decide) (by decide) rfl rfl

example : main 48 (fun _ => goodEnv) [5000] = .ok true := by
  obtain ⟨b, h1, h2⟩ := sblist_stress_each (e := fun _ => goodEnv) (max := 5000) (D := 48) (by decide) (by decide) (by decide) (by decide) (fun r i _ _ => by simp [goodEnv])
  rw [h1, h2.2 fun r _ _ i _ _ => by simp [goodEnv]]

example : tmain 48 goodEnv [] = .ok true :=
  (tglist_stress_iff (e := goodEnv) (D := 48) (max := 64 * 1024) (times := 1) (by decide) (by decide) (by decide) (by decide) (fun i _ _ => by simp [goodEnv])).1
    (fun i _ _ => by simp [goodEnv])

example : ttest_single 48 badEnv 100 1 ≠ .ok true := by
  rcases (tglist_stress_iff (e := badEnv) (D := 48) (max := 100) (times := 1) (by decide) (by decide) (by decide) (by decide) (fun i _ _ => by simp [badEnv])).2
    (fun h => h 4 (by decide) (Or.inr ⟨0, rfl⟩) (by simp [badEnv])) with h | h <;> rw [h] <;> simp

end Ulz.Props
