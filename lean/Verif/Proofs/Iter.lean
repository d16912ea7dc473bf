import Verif.Spec.Iter
import Verif.Proofs.Sblist
import Verif.Proofs.Tglist
set_option linter.unusedSimpArgs false
set_option linter.unusedVariables false
namespace Ulz.Iter
open Spec
open Ulz.Sblist (SB mul_lt_of deref_get)
open Ulz.Sblist.Spec (Rep)

theorem get_none {l : SB} {i : Nat} (h : l.count ≤ i) : Sblist.get l i = none := by
  unfold Sblist.get; rw [if_neg (by omega)]

theorem count_lt {l : SB} {xs} (h : Rep l xs) (hb : l.count * l.itemsize < 2^64) : l.count < 2^64 := by
  have := h.isz
  exact Nat.lt_of_le_of_lt (Nat.le_mul_of_pos_right _ this) hb

/-! ### Read-only loops -/

theorem takeWhile_mem {p : List Byte → Bool} {x : List Byte} : ∀ {xs : List (List Byte)}, x ∈ xs.takeWhile p → p x = true
  | y :: ys, h => by
    by_cases hy : p y = true
    · rw [List.takeWhile_cons_of_pos hy] at h
      rcases List.mem_cons.1 h with rfl | h
      · exact hy
      · exact takeWhile_mem h
    · rw [List.takeWhile_cons_of_neg hy] at h
      cases h

theorem takeWhile_all {p : List Byte → Bool} : ∀ {xs : List (List Byte)}, (∀ x ∈ xs, p x = true) → xs.takeWhile p = xs
  | [], _ => rfl
  | y :: ys, h => by
    rw [List.takeWhile_cons_of_pos (h y (by simp)), takeWhile_all (fun x hx => h x (by simp [hx]))]

theorem search_spec {σ : Type} {l : SB} (q : List Byte → Bool) (f : σ → List Byte → σ) (xs : List (List Byte)) (h : Rep l xs)
    (hb : l.count * l.itemsize < 2^64) : ∀ (post pre : List (List Byte)) (s : σ) (fuel : Nat), xs = pre ++ post → post.length < fuel →
    iter (search q f) fuel l pre.length s =
      .ok ⟨l, (pre ++ post.takeWhile (fun x => !q x)).length, Sblist.get l (pre ++ post.takeWhile (fun x => !q x)).length,
        (post.takeWhile (fun x => !q x)).foldl f s⟩
  | [], pre, s, fuel + 1, hxs, hf => by
    subst hxs
    have hc := h.count
    simp only [List.append_nil] at hc ⊢
    unfold iter
    dsimp only
    rw [if_neg (by omega)]
    simp [pure_eq_ok]
  | x :: post, pre, s, fuel + 1, hxs, hf => by
    have hlen : pre.length < xs.length := by rw [hxs]; simp
    have hc := h.count
    have hlt := count_lt h hb
    have hx : xs[pre.length] = x := by simp [hxs]
    unfold iter
    dsimp only
    rw [if_pos (by omega)]
    have hbody : search q f l pre.length (Sblist.get l pre.length) s = if q x then .ok (.brk l pre.length s) else .ok (.go l pre.length (f s x)) := by
      unfold search
      rw [deref_get h hb hlen, hx]
      rfl
    rw [hbody]
    by_cases hq : q x = true
    · rw [if_pos hq]
      simp only [ok_bindE, pure_eq_ok]
      rw [List.takeWhile_cons_of_neg (by simp [hq])]
      simp
    · rw [if_neg hq]
      simp only [ok_bindE]
      have ih := search_spec q f xs h hb post (pre ++ [x]) (f s x) fuel (by simp [hxs]) (by simp at hf; omega)
      rw [szt_of_lt (by omega)]
      rw [List.takeWhile_cons_of_pos (by simp [hq])]
      rw [show pre.length + 1 = (pre ++ [x]).length by simp, ih]
      simp

/-! ### Deleting -/

theorem eraseIdx_mid {pre post : List (List Byte)} {x} : (pre ++ x :: post).eraseIdx pre.length = pre ++ post := by
  rw [List.eraseIdx_append_of_length_le (Nat.le_refl _)]; simp

theorem removeU_spec {σ : Type} (p : List Byte → Bool) (f : σ → List Byte → σ) : ∀ (post pre : List (List Byte)) (l : SB) (s : σ)
    (fuel : Nat), Rep l (pre ++ post) → l.count * l.itemsize < 2^64 → post.length < fuel →
    ∃ l', iter (removeU p f) fuel l pre.length s = .ok ⟨l', l'.count, none, post.foldl f s⟩ ∧
      Rep l' (pre ++ post.filter (fun x => !p x)) ∧ l'.itemsize = l.itemsize ∧ l'.blockitems = l.blockitems
  | [], pre, l, s, fuel + 1, h, hb, hf => by
    have hc := h.count
    simp only [List.append_nil] at hc
    unfold iter
    dsimp only
    rw [if_neg (by omega), get_none (by omega)]
    refine ⟨l, ?_, by simpa using h, rfl, rfl⟩
    simp only [pure_eq_ok, hc]; simp
  | x :: post, pre, l, s, fuel + 1, h, hb, hf => by
    have hlen : pre.length < (pre ++ x :: post).length := by simp
    have hc := h.count
    have hlt := count_lt h hb
    have hx : (pre ++ x :: post)[pre.length] = x := by simp
    unfold iter
    dsimp only
    rw [if_pos (by omega)]
    have hbody : removeU p f l pre.length (Sblist.get l pre.length) s =
        if p x then (do pure (.go (← Sblist.delete l pre.length) (sztSub pre.length 1) (f s x))) else .ok (.go l pre.length (f s x)) := by
      unfold removeU
      rw [deref_get h hb hlen, hx]
      rfl
    rw [hbody]
    by_cases hp : p x = true
    · rw [if_pos hp]
      obtain ⟨l1, d1, d2, d3, d4, _⟩ := Sblist.delete_spec h hb pre.length
      rw [eraseIdx_mid] at d2
      rw [d1]
      simp only [ok_bindE, pure_eq_ok]
      have hc1 := d2.count
      have e : szt (sztSub pre.length 1 + 1) = pre.length := by
        unfold szt sztSub
        omega
      rw [e]
      obtain ⟨l', r1, r2, r3, r4⟩ := removeU_spec p f post pre l1 (f s x) fuel d2
        (by rw [d3]; exact mul_lt_of hb (by simp at hc hc1; omega)) (by simp at hf; omega)
      refine ⟨l', ?_, ?_, by rw [r3, d3], by rw [r4, d4]⟩
      · rw [r1]; rfl
      · rw [List.filter_cons_of_neg (by simp [hp])]; exact r2
    · rw [if_neg hp]
      simp only [ok_bindE]
      rw [szt_of_lt (by omega)]
      obtain ⟨l', r1, r2, r3, r4⟩ := removeU_spec p f post (pre ++ [x]) l (f s x) fuel (by simpa using h) hb (by simp at hf; omega)
      refine ⟨l', ?_, ?_, r3, r4⟩
      · simp only [List.length_append, List.length_singleton] at r1
        rw [r1]; rfl
      · rw [List.filter_cons_of_pos (by simp [hp])]; simpa using r2

theorem ssize_of_lt {n : Nat} (h : n < 2^63) : ssize n = n := by
  unfold ssize
  rw [BitVec.toInt_eq_toNat_cond, BitVec.toNat_ofNat, Nat.mod_eq_of_lt (by omega), if_pos (by omega)]

theorem removeS_spec {σ : Type} (p : List Byte → Bool) (f : σ → List Byte → σ) : ∀ (post pre : List (List Byte)) (l : SB) (s : σ)
    (fuel : Nat), Rep l (pre ++ post) → l.count * l.itemsize < 2^64 → l.count < 2^63 → post.length < fuel →
    ∃ l', iters (removeS p f) fuel l pre.length s = .ok ⟨l', l'.count, none, post.foldl f s⟩ ∧
      Rep l' (pre ++ post.filter (fun x => !p x)) ∧ l'.itemsize = l.itemsize ∧ l'.blockitems = l.blockitems
  | [], pre, l, s, fuel + 1, h, hb, h63, hf => by
    have hc := h.count
    simp only [List.append_nil] at hc
    unfold iters
    dsimp only
    rw [ssize_of_lt h63, if_neg (by omega), get_none (by omega)]
    refine ⟨l, ?_, by simpa using h, rfl, rfl⟩
    simp only [pure_eq_ok, hc]; simp
  | x :: post, pre, l, s, fuel + 1, h, hb, h63, hf => by
    have hlen : pre.length < (pre ++ x :: post).length := by simp
    have hc := h.count
    have hlt := count_lt h hb
    have hx : (pre ++ x :: post)[pre.length] = x := by simp
    have hm : ((pre.length : Int) % 2^64).toNat = pre.length := by omega
    unfold iters
    dsimp only
    rw [ssize_of_lt h63, if_pos (by omega), hm]
    have hbody : removeS p f l pre.length (Sblist.get l pre.length) s =
        if p x then (do
          let l ← Sblist.delete l pre.length
          if (pre.length : Int) = -2^63 then .error .overflow else pure (.go l (pre.length - 1 : Int) (f s x)))
        else .ok (.go l pre.length (f s x)) := by
      unfold removeS
      rw [deref_get h hb hlen, hx, hm]
      rfl
    rw [hbody]
    by_cases hp : p x = true
    · rw [if_pos hp]
      obtain ⟨l1, d1, d2, d3, d4, _⟩ := Sblist.delete_spec h hb pre.length
      rw [eraseIdx_mid] at d2
      rw [d1]
      simp only [ok_bindE, pure_eq_ok]
      have hc1 := d2.count
      rw [if_neg (by omega)]
      simp only [ok_bindE, pure_eq_ok]
      rw [if_neg (by omega)]
      have e : (pre.length : Int) - 1 + 1 = pre.length := by omega
      rw [e]
      obtain ⟨l', r1, r2, r3, r4⟩ := removeS_spec p f post pre l1 (f s x) fuel d2
        (by rw [d3]; exact mul_lt_of hb (by simp at hc hc1; omega)) (by simp at hc hc1; omega) (by simp at hf; omega)
      refine ⟨l', ?_, ?_, by rw [r3, d3], by rw [r4, d4]⟩
      · rw [r1]; rfl
      · rw [List.filter_cons_of_neg (by simp [hp])]; exact r2
    · rw [if_neg hp]
      simp only [ok_bindE]
      rw [if_neg (by omega)]
      obtain ⟨l', r1, r2, r3, r4⟩ := removeS_spec p f post (pre ++ [x]) l (f s x) fuel (by simpa using h) hb h63 (by simp at hf; omega)
      refine ⟨l', ?_, ?_, r3, r4⟩
      · simp only [List.length_append, List.length_singleton] at r1
        rw [show ((pre.length : Int) + 1) = ((pre.length + 1 : Nat) : Int) from rfl, r1]; rfl
      · rw [List.filter_cons_of_pos (by simp [hp])]; simpa using r2

theorem removeN_spec {σ : Type} (p : List Byte → Bool) (f : σ → List Byte → σ) : ∀ (fuel : Nat) (post pre : List (List Byte)) (l : SB) (s : σ),
    Rep l (pre ++ post) → l.count * l.itemsize < 2^64 → post.length < fuel →
    ∃ l' i, iter (removeN p f) fuel l pre.length s = .ok ⟨l', i, none, (visited p post).foldl f s⟩ ∧
      Rep l' (pre ++ leftover p post) ∧ l'.itemsize = l.itemsize ∧ l'.blockitems = l.blockitems
  | 0, post, pre, l, s, h, hb, hf => absurd hf (by omega)
  | fuel + 1, [], pre, l, s, h, hb, hf => by
    have hc := h.count
    simp only [List.append_nil] at hc
    unfold iter
    dsimp only
    rw [if_neg (by omega), get_none (by omega)]
    exact ⟨l, _, rfl, by simpa [leftover] using h, rfl, rfl⟩
  | fuel + 1, x :: post, pre, l, s, h, hb, hf => by
    have hlen : pre.length < (pre ++ x :: post).length := by simp
    have hc := h.count
    have hlt := count_lt h hb
    have hx : (pre ++ x :: post)[pre.length] = x := by simp
    unfold iter
    dsimp only
    rw [if_pos (by omega)]
    have hbody : removeN p f l pre.length (Sblist.get l pre.length) s =
        if p x then (do pure (.go (← Sblist.delete l pre.length) pre.length (f s x))) else .ok (.go l pre.length (f s x)) := by
      unfold removeN
      rw [deref_get h hb hlen, hx]
      rfl
    rw [hbody]
    have hf' : post.length < fuel := by simp at hf; omega
    by_cases hp : p x = true
    · rw [if_pos hp]
      obtain ⟨l1, d1, d2, d3, d4, _⟩ := Sblist.delete_spec h hb pre.length
      rw [eraseIdx_mid] at d2
      rw [d1]
      simp only [ok_bindE, pure_eq_ok]
      have hc1 := d2.count
      have hb1 : l1.count * l1.itemsize < 2^64 := by rw [d3]; exact mul_lt_of hb (by simp at hc hc1; omega)
      rw [szt_of_lt (by omega)]
      cases post with
      | nil =>
        simp only [List.append_nil] at d2 hc1
        cases fuel with
        | zero => simp at hf'
        | succ fuel =>
          unfold iter
          dsimp only
          rw [if_neg (by omega), get_none (by omega)]
          exact ⟨l1, _, rfl, by simpa [leftover, hp] using d2, d3, d4⟩
      | cons y ys =>
        obtain ⟨l', i, r1, r2, r3, r4⟩ := removeN_spec p f fuel ys (pre ++ [y]) l1 (f s x) (by simpa using d2) hb1
          (by simp at hf'; omega)
        refine ⟨l', i, ?_, ?_, by rw [r3, d3], by rw [r4, d4]⟩
        · simp only [List.length_append, List.length_singleton] at r1
          rw [r1]; simp only [visited, hp, if_true, List.foldl_cons]
        · simpa [leftover, hp] using r2
    · rw [if_neg hp]
      simp only [ok_bindE]
      rw [szt_of_lt (by omega)]
      obtain ⟨l', i, r1, r2, r3, r4⟩ := removeN_spec p f fuel post (pre ++ [x]) l (f s x) (by simpa using h) hb hf'
      have hp' : p x = false := by simpa using hp
      refine ⟨l', i, ?_, ?_, r3, r4⟩
      · simp only [List.length_append, List.length_singleton] at r1
        rw [r1]
        cases post with
        | nil => rfl
        | cons y ys => simp [visited, hp']
      · cases post with
        | nil => simpa [leftover, hp'] using r2
        | cons y ys => simpa [leftover, hp'] using r2

/-! ### What skipping leaves -/

theorem adjacent_cons {p : List Byte → Bool} {x y : List Byte} {ys} :
    Adjacent p (x :: y :: ys) ↔ (p x = true ∧ p y = true) ∨ Adjacent p (y :: ys) := by
  constructor
  · rintro ⟨i, hi, h1, h2⟩
    cases i with
    | zero => exact .inl ⟨h1, h2⟩
    | succ i => exact .inr ⟨i, by simpa using hi, h1, h2⟩
  · rintro (⟨h1, h2⟩ | ⟨i, hi, h1, h2⟩)
    · exact ⟨0, by simp, h1, h2⟩
    · exact ⟨i + 1, by simpa using hi, h1, h2⟩

theorem leftover_iff (p : List Byte → Bool) : ∀ (n : Nat) (xs : List (List Byte)), xs.length ≤ n →
    ((∃ x ∈ leftover p xs, p x = true) ↔ Adjacent p xs)
  | _, [], _ => by simp [leftover, Adjacent]
  | _, [x], _ => by
    simp only [leftover, Adjacent]
    split
    · simp
    · rename_i h; simp [h]
  | n + 1, x :: y :: ys, hn => by
    rw [adjacent_cons]
    by_cases hp : p x = true
    · simp only [leftover, hp, if_true, true_and, List.mem_cons, exists_eq_or_imp]
      by_cases hy : p y = true
      · simp [hy]
      · simp only [hy, false_or]
        rw [leftover_iff p n ys (by simp at hn; omega)]
        cases ys with
        | nil => simp [Adjacent, hy]
        | cons z zs => rw [adjacent_cons]; simp [hy]
    · have hp' : p x = false := by simpa using hp
      simp only [leftover, hp', Bool.false_eq_true, if_false, false_and, false_or, List.mem_cons, exists_eq_or_imp]
      exact leftover_iff p n (y :: ys) (by simp at hn ⊢; omega)

theorem leftover_filter (p : List Byte → Bool) : ∀ (n : Nat) (xs : List (List Byte)), xs.length ≤ n → ¬ Adjacent p xs →
    leftover p xs = xs.filter (fun x => !p x)
  | _, [], _, _ => rfl
  | _, [x], _, _ => by simp only [leftover]; cases h : p x <;> simp [h]
  | n + 1, x :: y :: ys, hn, ha => by
    rw [adjacent_cons] at ha
    by_cases hp : p x = true
    · have hy : p y = false := by
        cases h : p y
        · rfl
        · exact absurd (.inl ⟨hp, h⟩) ha
      have : ¬ Adjacent p ys := by
        intro h
        apply ha
        right
        cases ys with
        | nil => obtain ⟨i, hi, _⟩ := h; simp at hi
        | cons z zs => exact adjacent_cons.2 (.inr h)
      simp only [leftover, hp, if_true]
      rw [leftover_filter p n ys (by simp at hn; omega) this]
      simp [hp, hy]
    · have hp' : p x = false := by simpa using hp
      simp only [leftover, hp', Bool.false_eq_true, if_false]
      rw [leftover_filter p n (y :: ys) (by simp at hn ⊢; omega) (fun h => ha (.inr h))]
      simp [hp']

/-! ### Work lists -/

theorem addAll_spec (mem : Nat → Alloc) (hmem : ∀ n, (mem n).isSome) : ∀ (ys : List (List Byte)) (l : SB) (xs : List (List Byte)), Rep l xs →
    0 < l.blockitems → (xs.length + ys.length + l.blockitems) * l.itemsize < 2^64 → (∀ y ∈ ys, y.length = l.itemsize) →
    ∃ l', addAll mem l ys = .ok (l', true) ∧ Rep l' (xs ++ ys) ∧ l'.itemsize = l.itemsize ∧ l'.blockitems = l.blockitems
  | [], l, xs, h, hbi, hb, hy => ⟨l, rfl, by simpa using h, rfl, rfl⟩
  | y :: ys, l, xs, h, hbi, hb, hy => by
    have hc := h.count
    unfold addAll
    rcases Sblist.add_spec h hbi (mul_lt_of hb (by simp; omega)) (mem l.count) y (hy y (by simp)) with
      ⟨l1, a1, _, a2, a3, a4⟩ | ⟨a1, _⟩
    · rw [a1]
      simp only [ok_bindE, Nat.one_ne_zero, if_false]
      obtain ⟨l', r1, r2, r3, r4⟩ := addAll_spec mem hmem ys l1 (xs ++ [y]) a2 (by omega)
        (by rw [a3, a4]; exact mul_lt_of hb (by simp; omega)) (fun z hz => by rw [a3]; exact hy z (by simp [hz]))
      exact ⟨l', r1, by simpa using r2, by rw [r3, a3], by rw [r4, a4]⟩
    · have := hmem l.count; rw [a1] at this; simp at this

/-- The order in which a queue is worked off. -/
inductive Q (g : List Byte → List (List Byte)) : List (List Byte) → List (List Byte) → Prop
  | nil : Q g [] []
  | cons {x todo ys} : Q g (todo ++ g x) ys → Q g (x :: todo) (x :: ys)

theorem Q.prefix {g todo ys} (h : Q g todo ys) : ∃ r, ys = todo ++ r := by
  induction h with
  | nil => exact ⟨[], rfl⟩
  | cons h ih => obtain ⟨r, hr⟩ := ih; exact ⟨_, by rw [hr]; simp; rfl⟩

theorem Q.stage {g} : ∀ (a b ys : List (List Byte)), Q g (b ++ a.flatMap g) ys → Q g (a ++ b) (a ++ ys)
  | [], b, ys, h => by simpa using h
  | x :: a, b, ys, h => by
    refine .cons ?_
    have := Q.stage a (b ++ g x) ys (by simpa using h)
    simpa using this

theorem Q.levels {g} : ∀ (n : Nat) (xs : List (List Byte)), Spec.level g n xs = [] → Q g xs (generations g n xs)
  | 0, xs, h => by simp only [Spec.level] at h; subst h; exact .nil
  | n + 1, xs, h => by
    have := Q.stage (g := g) xs [] (generations g n (xs.flatMap g)) (by simpa using Q.levels n (xs.flatMap g) h)
    simpa [generations] using this

theorem extend_spec {σ : Type} (mem : Nat → Alloc) (hmem : ∀ n, (mem n).isSome) (g : List Byte → List (List Byte)) (f : σ → List Byte → σ)
    {todo ys} (hq : Q g todo ys) : ∀ (fuel : Nat) (done : List (List Byte)) (l : SB) (s : σ),
    Rep l (done ++ todo) → 0 < l.blockitems → (done.length + ys.length + l.blockitems) * l.itemsize < 2^64 →
    (∀ x ∈ ys, ∀ y ∈ g x, y.length = l.itemsize) → ys.length < fuel →
    ∃ l', iter (extend mem g f) fuel l done.length s = .ok ⟨l', l'.count, none, ys.foldl f s⟩ ∧
      Rep l' (done ++ ys) ∧ l'.itemsize = l.itemsize ∧ l'.blockitems = l.blockitems := by
  induction hq with
  | nil =>
    intro fuel done l s h hbi hb hg hf
    have hc := h.count
    simp only [List.append_nil] at hc
    cases fuel with
    | zero => simp at hf
    | succ fuel =>
      unfold iter
      dsimp only
      rw [if_neg (by omega), get_none (by omega)]
      exact ⟨l, by rw [hc]; rfl, h, rfl, rfl⟩
  | @cons x todo ys hq ih =>
    intro fuel done l s h hbi hb hg hf
    obtain ⟨r, hr⟩ := hq.prefix
    have hlr : ys.length = todo.length + (g x).length + r.length := by rw [hr]; simp only [List.length_append]
    have hlen : done.length < (done ++ x :: todo).length := by simp
    have hc := h.count
    have hcl : l.count = done.length + todo.length + 1 := by rw [hc]; simp; omega
    simp only [List.length_cons] at hb hf
    have hb0 : l.count * l.itemsize < 2^64 := mul_lt_of hb (by omega)
    have hlt := count_lt h hb0
    have hx : (done ++ x :: todo)[done.length] = x := by simp
    cases fuel with
    | zero => omega
    | succ fuel =>
      obtain ⟨l1, a1, a2, a3, a4⟩ := addAll_spec mem hmem (g x) l _ h hbi
        (mul_lt_of hb (by simp; omega)) (fun y hy => hg x (by simp) y hy)
      have hbody : extend mem g f l done.length (Sblist.get l done.length) s = .ok (.go l1 done.length (f s x)) := by
        unfold extend
        rw [deref_get h hb0 hlen, hx]
        simp only [ok_bindE, a1]
        rfl
      unfold iter
      dsimp only
      rw [if_pos (by omega), hbody]
      simp only [ok_bindE]
      rw [szt_of_lt (by omega)]
      obtain ⟨l', r1, r2, r3, r4⟩ := ih fuel (done ++ [x]) l1 (f s x) (by simpa using a2) (by omega)
        (by rw [a3, a4]; simp only [List.length_append, List.length_singleton]; exact mul_lt_of hb (by omega))
        (fun z hz y hy => by rw [a3]; exact hg z (by simp [hz]) y hy) (by omega)
      simp only [List.length_append, List.length_singleton] at r1
      exact ⟨l', r1, by simpa using r2, by rw [r3, a3], by rw [r4, a4]⟩

/-! ### tglist -/

theorem removeT_spec {σ : Type} {isz : Nat} (p : List Byte → Bool) (f : σ → List Byte → σ) : ∀ (post pre : List (List Byte)) (l : Tglist.TG) (s : σ)
    (fuel : Nat), Tglist.Spec.Rep isz l (pre ++ post) → l.count * isz < 2^64 → post.length < fuel →
    ∃ l', foreach (removeT isz p f) fuel l pre.length s = .ok (l', l'.count, post.foldl f s) ∧
      Tglist.Spec.Rep isz l' (pre ++ post.filter (fun x => !p x))
  | [], pre, l, s, fuel + 1, h, hb, hf => by
    have hc := h.count
    simp only [List.append_nil] at hc
    unfold foreach
    rw [if_neg (by omega)]
    exact ⟨l, by rw [hc]; rfl, by simpa using h⟩
  | x :: post, pre, l, s, fuel + 1, h, hb, hf => by
    have hlen : pre.length < (pre ++ x :: post).length := by simp
    have hc := h.count
    have hlt : l.count < 2^64 := Nat.lt_of_le_of_lt (Nat.le_mul_of_pos_right _ h.pos) hb
    have hx : (pre ++ x :: post)[pre.length] = x := by simp
    unfold foreach
    rw [if_pos (by omega)]
    have hbody : removeT isz p f l pre.length s =
        if p x then (do pure (.go (← Tglist.delete isz l pre.length) (sztSub pre.length 1) (f s x))) else .ok (.go l pre.length (f s x)) := by
      unfold removeT
      rw [Tglist.get_spec h hb hlen, hx]
      rfl
    rw [hbody]
    by_cases hp : p x = true
    · rw [if_pos hp]
      obtain ⟨l1, d1, d2, d3, d4⟩ := Tglist.delete_spec h hb hlen
      rw [eraseIdx_mid] at d2
      rw [d1]
      simp only [ok_bindE, pure_eq_ok]
      have e : szt (sztSub pre.length 1 + 1) = pre.length := by
        unfold szt sztSub
        omega
      rw [e]
      obtain ⟨l', r1, r2⟩ := removeT_spec p f post pre l1 (f s x) fuel d2 (mul_lt_of hb (by omega)) (by simp at hf; omega)
      exact ⟨l', r1, by rw [List.filter_cons_of_neg (by simp [hp])]; exact r2⟩
    · rw [if_neg hp]
      simp only [ok_bindE]
      rw [szt_of_lt (by omega)]
      obtain ⟨l', r1, r2⟩ := removeT_spec p f post (pre ++ [x]) l (f s x) fuel (by simpa using h) hb (by simp at hf; omega)
      simp only [List.length_append, List.length_singleton] at r1
      exact ⟨l', r1, by rw [List.filter_cons_of_pos (by simp [hp])]; simpa using r2⟩

end Ulz.Iter
