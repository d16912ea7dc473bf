import Verif.Spec.Treap
import Verif.Proofs.Tlist
set_option linter.unusedSimpArgs false
set_option linter.unusedVariables false
namespace Ulz.Tlist
open Spec Spec.Tr

/-- Priorities from left to right. -/
def prios : Tr → List Nat
  | .nil => []
  | .node _ p _ l r => prios l ++ p :: prios r

theorem prios_length (T : Tr) : (prios T).length = T.size := by
  induction T with
  | nil => rfl
  | node a p d l r ihl ihr => simp [prios, size, ihl, ihr]; omega

theorem mergeT_prios (L R : Tr) : prios (mergeT L R) = prios L ++ prios R := by
  induction L, R using mergeT.induct with
  | case1 R => simp [mergeT_nil_left, prios]
  | case2 a p d l r => simp [mergeT_nil_right, prios]
  | case3 a p d l r a' p' d' l' r' h ih => rw [mergeT_node, if_pos h]; simp only [prios, ih]; simp
  | case4 a p d l r a' p' d' l' r' h ih => rw [mergeT_node, if_neg h]; simp only [prios, ih]; simp

theorem splitT_prios (T : Tr) : ∀ key add, prios (splitT T key add).1 ++ prios (splitT T key add).2 = prios T := by
  induction T with
  | nil => intros; simp [splitT, prios]
  | node a p d l r ihl ihr =>
    intro key add
    simp only [splitT]
    split
    · simp only [prios]; rw [← List.append_assoc, ihl]
    · simp only [prios]; rw [List.append_assoc, List.cons_append, ihr]

/-- A tree without right children. -/
def Chain : Tr → Prop
  | .nil => True
  | .node _ p _ l r => r = .nil ∧ l.rootLe p ∧ Chain l

theorem chain_le : ∀ {T : Tr} {p : Nat}, Chain T → T.rootLe p → ∀ q ∈ prios T, q ≤ p
  | .nil, p, _, _, q, hq => by simp [prios] at hq
  | .node a p' d l r, p, hc, hr, q, hq => by
    obtain ⟨rfl, h1, h2⟩ := hc
    simp only [rootLe] at hr
    simp only [prios, List.mem_append, List.mem_singleton] at hq
    rcases hq with hq | rfl
    · exact Nat.le_trans (chain_le h2 h1 q hq) hr
    · exact hr

theorem chain_split (p : Nat) : ∀ {T : Tr}, Chain T →
    Chain (splitT T ((prios T).countP (· ≤ p)) 0).1 ∧ (splitT T ((prios T).countP (· ≤ p)) 0).1.rootLe p ∧
    Chain (splitT T ((prios T).countP (· ≤ p)) 0).2 ∧
    (∀ q ∈ prios (splitT T ((prios T).countP (· ≤ p)) 0).2, p < q) ∧
    (∀ q, T.rootLe q → (splitT T ((prios T).countP (· ≤ p)) 0).2.rootLe q)
  | .nil, _ => by simp [splitT, Chain, rootLe, prios]
  | .node a q d l r, hc => by
    obtain ⟨rfl, h1, h2⟩ := hc
    by_cases hq : q ≤ p
    · have hall : (prios l ++ [q]).countP (· ≤ p) = l.size + 1 := by
        rw [List.countP_eq_length.2]
        · simp [prios_length]
        · intro x hx
          simp only [List.mem_append, List.mem_singleton] at hx
          rcases hx with hx | rfl
          · simp; have := chain_le h2 h1 x hx; omega
          · simpa using hq
      simp only [prios]
      rw [hall]
      simp only [splitT]
      rw [if_neg (by omega)]
      exact ⟨⟨rfl, h1, h2⟩, hq, trivial, by simp [prios], by simp [rootLe]⟩
    · have hcnt : (prios l ++ [q]).countP (· ≤ p) = (prios l).countP (· ≤ p) := by
        rw [List.countP_append]; simp [hq]
      have hle : (prios l).countP (· ≤ p) ≤ l.size := by
        rw [← prios_length]; exact List.countP_le_length
      simp only [prios]
      rw [hcnt]
      simp only [splitT]
      rw [if_pos (by omega)]
      obtain ⟨i1, i2, i3, i4, i5⟩ := chain_split p h2
      refine ⟨i1, i2, ⟨rfl, i5 q h1, i3⟩, ?_, ?_⟩
      · intro x hx
        simp only [prios, List.mem_append, List.mem_singleton] at hx
        rcases hx with hx | rfl
        · exact i4 x hx
        · omega
      · intro x hx; exact hx

theorem chain_merge_left {X : Tr} {n p : Nat} {x : List Byte} (h1 : X.rootLe p) :
    mergeT X (.node n p x .nil .nil) = .node n p x X .nil := by
  cases X with
  | nil => rw [mergeT_nil_left]
  | node a q d l r =>
    simp only [rootLe] at h1
    rw [mergeT_node, if_neg (by omega), mergeT_nil_right]

theorem chain_merge_right {X : Tr} {n p : Nat} {x : List Byte} (hX : Chain X) (h1 : X.rootLe p) :
    ∀ {Y : Tr}, Chain Y → (∀ q ∈ prios Y, p < q) →
      Chain (mergeT (.node n p x X .nil) Y) ∧ ∀ q, p ≤ q → Y.rootLe q → (mergeT (.node n p x X .nil) Y).rootLe q
  | .nil, _, _ => by rw [mergeT_nil_right]; exact ⟨⟨rfl, h1, hX⟩, fun q hq _ => hq⟩
  | .node a q d l r, hc, hq => by
    obtain ⟨rfl, h3, h4⟩ := hc
    have hpq : p < q := hq q (by simp [prios])
    obtain ⟨i1, i2⟩ := chain_merge_right hX h1 h4 (fun y hy => hq y (by simp [prios, hy]))
    rw [mergeT_node, if_neg (by omega)]
    exact ⟨⟨rfl, i2 q (by omega) h3, i1⟩, fun y hy hr => hr⟩

/-- The position that keeps a chain a chain. -/
def worst : Nat → Nat → List Nat → List Nat
  | 0, _, _ => []
  | n + 1, s, ps => ps.countP (· ≤ (mrand s).2) :: worst n (mrand s).1 ((mrand s).2 :: ps)

theorem worst_length : ∀ n s ps, (worst n s ps).length = n
  | 0, _, _ => rfl
  | n + 1, s, ps => by simp [worst, worst_length]

theorem chain_run : ∀ (cs : List (Nat × List Byte × Nat)) (t : TL) (T : Tr) (ps : List Nat), WF t T → Chain T → (prios T).Perm ps →
    T.size + cs.length < 2^32 → cs.map Prod.fst = worst cs.length t.seed ps → Lawful t.itemsize cs →
    (∀ c ∈ cs, ∀ b ∈ T.addrs, c.2.2 + (hdr + t.itemsize) ≤ b ∨ b + (hdr + t.itemsize) ≤ c.2.2) → t.heap.ext = [] →
    ∃ t' T', run t (inserts cs) = .ok (t', List.replicate cs.length (.int 1)) ∧ WF t' T' ∧ Chain T' ∧ T'.size = T.size + cs.length
  | [], t, T, ps, h, hc, hp, hs, he, hl, hd, hx => ⟨t, T, rfl, h, hc, rfl⟩
  | (i, x, a) :: cs, t, T, ps, h, hc, hp, hs, he, hl, hd, hx => by
    simp only [List.length_cons] at hs he
    simp only [List.map_cons, worst, List.cons.injEq] at he
    obtain ⟨hi, he⟩ := he
    rw [← hp.countP_eq] at hi
    have hile : i ≤ T.size := by rw [hi, ← prios_length]; exact List.countP_le_length
    have hfr : Fresh t a := by
      refine ⟨(hl.1 (i, x, a) (by simp)).2, ?_, by simp [hx]⟩
      intro b hb
      exact hd (i, x, a) (by simp) b ((h.live b).1 hb)
    obtain ⟨t1, T1, e1, e2, e3, e4, e5, e7, e6⟩ := insert_spec_tree h (by omega) hile hfr (hl.1 (i, x, a) (by simp)).1
    obtain ⟨s1, s2, s3, s4, s5⟩ := chain_split (mrand t.seed).2 hc
    rw [← hi] at s1 s2 s3 s4 s5
    have hT1 : T1 = mergeT (.node a (mrand t.seed).2 x (splitT T i 0).1 .nil) (splitT T i 0).2 := by
      rw [e6, chain_merge_left s2]
    have hch : Chain T1 := by rw [hT1]; exact (chain_merge_right s1 s2 s3 s4).1
    have hsz : T1.size = T.size + 1 := by
      rw [hT1, mergeT_size]; simp only [size]; have := splitT_size T i 0; omega
    have hpr : (prios T1).Perm ((mrand t.seed).2 :: ps) := by
      rw [hT1, mergeT_prios]
      simp only [prios, List.append_assoc, List.cons_append, List.nil_append]
      have h3 := splitT_prios T i 0
      refine List.perm_middle.trans (List.Perm.cons _ ?_)
      rw [h3]; exact hp
    have hext : t1.heap.ext = [] := by rw [e7, hx]
    have haddr : ∀ b, b ∈ T1.addrs ↔ b = a ∨ b ∈ T.addrs := by
      intro b
      rw [hT1, (mergeT_lists _ _).1]
      have := (splitT_append T i 0).1
      rw [← this]
      simp only [addrs, List.mem_append, List.mem_cons, List.not_mem_nil, or_false]
      grind
    obtain ⟨hl1, hl2⟩ := hl
    obtain ⟨hl2, hl3⟩ := List.pairwise_cons.1 hl2
    obtain ⟨t2, T2, r1, r2, r3, r4⟩ := chain_run cs t1 T1 _ e2 hch hpr (by omega) (by rw [e5]; exact he)
      (by rw [e3]; exact ⟨fun c hc => hl1 c (by simp [hc]), hl3⟩)
      (by
        rw [e3]
        intro c hcm b hb
        rcases (haddr b).1 hb with rfl | hb
        · have := hl2 c hcm; simp only at this; omega
        · exact hd c (by simp [hcm]) b hb) hext
    refine ⟨t2, T2, ?_, r2, r3, by simp only [List.length_cons]; omega⟩
    have hst : step t (.insert i x (some a)) = .ok (t1, .int 1) := by simp only [step]; rw [e1]; rfl
    have hr : inserts ((i, x, a) :: cs) = .insert i x (some a) :: inserts cs := rfl
    rw [hr, run, hst]
    simp only [ok_bind]
    rw [r1]
    rfl

theorem chain_getitem : ∀ (T : Tr) (h : Heap) (d : Nat), Has h T → Chain T → 0 < T.size → T.size < 2^32 →
    (getitem d h T.rootA 0 0 = .error .hang ↔ d < T.size)
  | .nil, h, d, _, _, h0, _ => by simp [size] at h0
  | .node a p e l r, h, 0, hh, hc, h0, hs => by simp [getitem, size]
  | .node a p e l r, h, d + 1, hh, hc, h0, hs => by
    obtain ⟨rfl, h1, h2⟩ := hc
    simp only [Has] at hh
    obtain ⟨l1, l2, l3, l4, l5, l6, l7, l8, l9⟩ := hh
    simp only [size] at hs ⊢
    simp only [rootA_node]
    unfold getitem
    have ca1 : chkCell h (.left a) = .ok () := chk_ok l1 l2
    rw [if_neg l1, load_ok ca1]
    simp only [ok_bind, l6, cnt_has l8]
    rw [show u32 (0 + l.size) = l.size by simp [u32]; omega]
    by_cases hl : l.size = 0
    · rw [if_pos hl]; simp [pure_eq_ok, hl]
    · rw [if_neg hl, if_neg (by omega), chain_getitem l h d l8 h2 (by omega) (by omega)]
      omega

end Ulz.Tlist
