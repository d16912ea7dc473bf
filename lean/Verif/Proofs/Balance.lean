import Verif.Spec.Balance
import Verif.Proofs.Treap
set_option linter.unusedSimpArgs false
set_option linter.unusedVariables false
namespace Ulz.Tlist
open Spec Spec.Tr

/-- The root's priority is below `p`. -/
def rootLt (p : Nat) : Tr → Prop
  | .nil => True
  | .node _ q _ _ _ => q < p

/-- Priorities do not increase to the left and decrease to the right. -/
def Strict : Tr → Prop
  | .nil => True
  | .node _ p _ l r => l.rootLe p ∧ rootLt p r ∧ Strict l ∧ Strict r

theorem mergeT_rootLt (L R : Tr) (p : Nat) (h1 : rootLt p L) (h2 : rootLt p R) : rootLt p (mergeT L R) := by
  cases L with
  | nil => rw [mergeT_nil_left]; exact h2
  | node a q d l r =>
    cases R with
    | nil => rw [mergeT_nil_right]; exact h1
    | node a' q' d' l' r' => rw [mergeT_node]; split <;> assumption

theorem mergeT_strict (L R : Tr) (h1 : Strict L) (h2 : Strict R) : Strict (mergeT L R) := by
  induction L, R using mergeT.induct with
  | case1 R => rw [mergeT_nil_left]; exact h2
  | case2 a p d l r => rw [mergeT_nil_right]; exact h1
  | case3 a p d l r a' p' d' l' r' h ih =>
    rw [mergeT_node, if_pos h]
    simp only [Strict] at h1 ⊢
    exact ⟨h1.1, mergeT_rootLt _ _ _ h1.2.1 h, h1.2.2.1, ih h1.2.2.2 h2⟩
  | case4 a p d l r a' p' d' l' r' h ih =>
    rw [mergeT_node, if_neg h]
    simp only [Strict] at h2 ⊢
    exact ⟨mergeT_rootLe _ _ _ (by simp [rootLe]; omega) h2.1, h2.2.1, ih h1 h2.2.2.1, h2.2.2.2⟩

theorem strict_prio : ∀ {T : Tr}, Strict T → T.Prio
  | .nil, _ => trivial
  | .node a p d l r, h => by
    obtain ⟨h1, h2, h3, h4⟩ := h
    refine ⟨h1, ?_, strict_prio h3, strict_prio h4⟩
    cases r with
    | nil => trivial
    | node => exact Nat.le_of_lt h2

theorem splitT_rootLt (T : Tr) (q : Nat) : ∀ key add, T.Prio → rootLt q T →
    rootLt q (splitT T key add).1 ∧ rootLt q (splitT T key add).2 := by
  induction T with
  | nil => intros; simp [splitT, rootLt]
  | node a p d l r ihl ihr =>
    intro key add ho h
    simp only [splitT]
    obtain ⟨o1, o2, o3, o4⟩ := ho
    have hl : rootLt q l := by cases l <;> simp_all [rootLt, rootLe]; omega
    have hr : rootLt q r := by cases r <;> simp_all [rootLt, rootLe]; omega
    split
    · exact ⟨(ihl key add o3 hl).1, h⟩
    · exact ⟨h, (ihr _ _ o4 hr).2⟩

theorem splitT_strict (T : Tr) : ∀ key add, Strict T → Strict (splitT T key add).1 ∧ Strict (splitT T key add).2 := by
  induction T with
  | nil => intros; simp [splitT, Strict]
  | node a p d l r ihl ihr =>
    intro key add h
    obtain ⟨h1, h2, h3, h4⟩ := h
    simp only [splitT]
    split
    · exact ⟨(ihl key add h3).1, (splitT_rootLe l p key add (strict_prio h3) h1).2, h2, (ihl key add h3).2, h4⟩
    · exact ⟨⟨h1, (splitT_rootLt r p _ _ (strict_prio h4) h2).1, h3, (ihr _ _ h4).1⟩, (ihr _ _ h4).2⟩

theorem removeT_rootLt (T : Tr) (q : Nat) (idx add : Nat) (ho : T.Prio) (hq : rootLt q T) : rootLt q (removeT T idx add) := by
  cases T with
  | nil => simp [removeT, rootLt]
  | node a p d l r =>
    simp only [removeT]
    obtain ⟨o1, o2, o3, o4⟩ := ho
    have hl : rootLt q l := by cases l <;> simp_all [rootLt, rootLe]; omega
    have hr : rootLt q r := by cases r <;> simp_all [rootLt, rootLe]; omega
    split
    · exact mergeT_rootLt _ _ _ hl hr
    · split <;> exact hq

theorem removeT_strict (T : Tr) : ∀ idx add, Strict T → Strict (removeT T idx add) := by
  induction T with
  | nil => intros; simp [removeT, Strict]
  | node a p d l r ihl ihr =>
    intro idx add h
    obtain ⟨h1, h2, h3, h4⟩ := h
    simp only [removeT]
    split
    · exact mergeT_strict _ _ h3 h4
    · split
      · exact ⟨h1, removeT_rootLt _ _ _ _ (strict_prio h4) h2, h3, ihr _ _ h4⟩
      · exact ⟨removeT_rootLe _ _ _ _ (strict_prio h3) h1, h2, ihl _ _ h3, h4⟩

theorem removeT_prios (T : Tr) : ∀ idx add, add ≤ idx → idx < add + T.size → prios (removeT T idx add) = (prios T).eraseIdx (idx - add) := by
  induction T with
  | nil => intro idx add h1 h2; simp [size] at h2; omega
  | node a p d l r ihl ihr =>
    intro idx add h1 h2
    simp only [size] at h2
    have hl := prios_length l
    simp only [removeT]
    split
    · rename_i h; simp only [prios]
      rw [mergeT_prios, List.eraseIdx_append_of_length_le (by omega), show idx - add - (prios l).length = 0 by omega]; rfl
    · split
      · simp only [prios]
        rw [List.eraseIdx_append_of_length_le (by omega), ihr _ _ (by omega) (by omega),
          show idx - add - (prios l).length = (idx - (add + l.size + 1)) + 1 by omega]; rfl
      · simp only [prios]
        rw [List.eraseIdx_append_of_lt_length (by omega), ihl _ _ (by omega) (by omega)]

theorem splitT_prios1 (T : Tr) (k : Nat) (hk : k ≤ T.size) :
    prios (splitT T k 0).1 = (prios T).take k ∧ prios (splitT T k 0).2 = (prios T).drop k := by
  have h1 := splitT_prios T k 0
  have h2 := splitT_size1 T k 0 (by omega) (by omega)
  have h3 : (prios (splitT T k 0).1).length = k := by rw [prios_length, h2]; omega
  rw [← h1]
  constructor
  · rw [List.take_append_of_le_length (by omega), List.take_of_length_le (by omega)]
  · rw [List.drop_append_of_le_length (by omega), List.drop_eq_nil_of_le (by omega), List.nil_append]

/-- Calls a lookup makes. -/
def way : Tr → Nat → Nat
  | .nil, _ => 1
  | .node _ _ _ l r, i => if i = l.size then 1 else if i < l.size then way l i + 1 else way r (i - l.size - 1) + 1

theorem getitem_way : ∀ (T : Tr) (h : Heap) (d i add : Nat), Has h T → i < T.size → add + T.size < 2^32 →
    (getitem d h T.rootA (add + i) add = .error .hang ↔ d < way T i)
  | .nil, h, d, i, add, _, hi, _ => by simp [size] at hi
  | .node a p e l r, h, 0, i, add, hh, hi, hs => by
    have : 0 < way (.node a p e l r) i := by simp only [way]; split <;> (try split) <;> omega
    simp [getitem, this]
  | .node a p e l r, h, d + 1, i, add, hh, hi, hs => by
    simp only [Has] at hh
    obtain ⟨l1, l2, l3, l4, l5, l6, l7, l8, l9⟩ := hh
    simp only [size] at hs hi
    simp only [rootA_node, way]
    unfold getitem
    have ca1 : chkCell h (.left a) = .ok () := chk_ok l1 l2
    have ca2 : chkCell h (.right a) = .ok () := chk_ok l1 l2
    rw [if_neg l1, load_ok ca1, load_ok ca2]
    simp only [ok_bind, l6, l7, cnt_has l8]
    rw [show u32 (add + l.size) = add + l.size from Nat.mod_eq_of_lt (by omega),
      show u32 (add + 1 + l.size) = add + 1 + l.size from Nat.mod_eq_of_lt (by omega)]
    by_cases e1 : i = l.size
    · rw [if_pos (by omega), if_pos e1]; simp [pure_eq_ok]
    · rw [if_neg (by omega), if_neg e1]
      by_cases e2 : i < l.size
      · rw [if_neg (by omega), if_pos e2, getitem_way l h d i add l8 e2 (by omega)]; omega
      · rw [if_pos (by omega), if_neg e2, show add + i = (add + 1 + l.size) + (i - l.size - 1) by omega,
          getitem_way r h d (i - l.size - 1) _ l9 (by omega) (by omega)]; omega

theorem strict_le : ∀ {T : Tr} {p : Nat}, T.Prio → T.rootLe p → ∀ q ∈ prios T, q ≤ p
  | .nil, p, _, _, q, hq => by simp [prios] at hq
  | .node a p' d l r, p, ho, hr, q, hq => by
    obtain ⟨o1, o2, o3, o4⟩ := ho
    simp only [rootLe] at hr
    simp only [prios, List.mem_append, List.mem_cons] at hq
    rcases hq with hq | rfl | hq
    · exact Nat.le_trans (strict_le o3 o1 q hq) hr
    · exact hr
    · exact Nat.le_trans (strict_le o4 o2 q hq) hr

theorem strict_lt {T : Tr} {p : Nat} (ho : T.Prio) (hr : rootLt p T) : ∀ q ∈ prios T, q < p := by
  intro q hq
  cases T with
  | nil => simp [prios] at hq
  | node a p' d l r =>
    have := strict_le (p := p') ho (Nat.le_refl _) q hq
    simp only [rootLt] at hr
    omega

theorem getD_mem {L : List Nat} {k : Nat} (h : k < L.length) : L.getD k 0 ∈ L := by
  rw [List.getD_eq_getElem?_getD, List.getElem?_eq_getElem h]; exact List.getElem_mem h

theorem getD_l {L R : List Nat} {p k : Nat} (h : k < L.length) : (L ++ p :: R).getD k 0 = L.getD k 0 := by
  simp [List.getD_eq_getElem?_getD, List.getElem?_append_left h]
theorem getD_m {L R : List Nat} {p : Nat} : (L ++ p :: R).getD L.length 0 = p := by
  simp [List.getD_eq_getElem?_getD]
theorem getD_r {L R : List Nat} {p k : Nat} : (L ++ p :: R).getD (L.length + 1 + k) 0 = R.getD k 0 := by
  rw [List.getD_eq_getElem?_getD, List.getElem?_append_right (by omega), show L.length + 1 + k - L.length = k + 1 by omega]; simp [List.getD_eq_getElem?_getD]

theorem onWay_ll {L R : List Nat} {p i j : Nat} (hi : i < L.length) (hj : j < L.length) :
    OnWay (L ++ p :: R) i j ↔ OnWay L i j := by
  unfold OnWay
  rw [getD_l hj]
  constructor
  · rintro (⟨h1, h2⟩ | ⟨h1, h2⟩)
    · exact .inl ⟨h1, fun k hk hjk => by have := h2 k hk hjk; rwa [getD_l (by omega)] at this⟩
    · exact .inr ⟨h1, fun k hk hjk => by have := h2 k hk hjk; rwa [getD_l (by omega)] at this⟩
  · rintro (⟨h1, h2⟩ | ⟨h1, h2⟩)
    · exact .inl ⟨h1, fun k hk hjk => by rw [getD_l (by omega)]; exact h2 k hk hjk⟩
    · exact .inr ⟨h1, fun k hk hjk => by rw [getD_l (by omega)]; exact h2 k hk hjk⟩

theorem onWay_rr {L R : List Nat} {p i j : Nat} :
    OnWay (L ++ p :: R) (L.length + 1 + i) (L.length + 1 + j) ↔ OnWay R i j := by
  unfold OnWay
  rw [getD_r]
  constructor
  · rintro (⟨h1, h2⟩ | ⟨h1, h2⟩)
    · exact .inl ⟨by omega, fun k hk hjk => by have := h2 (L.length + 1 + k) (by omega) (by omega); rwa [getD_r] at this⟩
    · exact .inr ⟨by omega, fun k hk hjk => by have := h2 (L.length + 1 + k) (by omega) (by omega); rwa [getD_r] at this⟩
  · rintro (⟨h1, h2⟩ | ⟨h1, h2⟩)
    · exact .inl ⟨by omega, fun k hk hjk => by
        rw [show k = L.length + 1 + (k - (L.length + 1)) by omega, getD_r]; exact h2 _ (by omega) (by omega)⟩
    · exact .inr ⟨by omega, fun k hk hjk => by
        rw [show k = L.length + 1 + (k - (L.length + 1)) by omega, getD_r]; exact h2 _ (by omega) (by omega)⟩

/-- Positions of a list with a middle element. -/
theorem range_parts (a b : Nat) : List.range (a + (b + 1)) = List.range a ++ a :: (List.range b).map (a + 1 + ·) := by
  rw [List.range_add, List.range_succ_eq_map, List.map_cons, List.map_map]
  congr 2
  apply List.map_congr_left
  intro x _
  simp; omega

theorem way_eq : ∀ (T : Tr), Strict T → ∀ i < T.size, way T i = wayLength (prios T) i
  | .nil, _, i, hi => by simp [size] at hi
  | .node a p d l r, h, i, hi => by
    obtain ⟨h1, h2, h3, h4⟩ := h
    have hL := strict_le (strict_prio h3) h1
    have hR := strict_lt (strict_prio h4) h2
    simp only [size] at hi
    show way (.node a p d l r) i = wayLength (prios l ++ p :: prios r) i
    simp only [way, wayLength]
    have e : (prios l ++ p :: prios r).length = (prios l).length + ((prios r).length + 1) := by simp
    rw [e, range_parts, List.countP_append, List.countP_cons, List.countP_map]
    have ll := prios_length l
    have lr := prios_length r
    by_cases e1 : i = l.size
    · rw [if_pos e1]
      subst e1
      rw [← ll]
      have c1 : (List.range (prios l).length).countP (fun j => decide (OnWay (prios l ++ p :: prios r) (prios l).length j)) = 0 := by
        rw [List.countP_eq_zero]
        intro j hj
        have hj := List.mem_range.1 hj
        simp only [decide_eq_true_eq]
        rintro (⟨_, q⟩ | ⟨q, _⟩)
        · have := q _ (Nat.le_refl _) hj
          rw [getD_m, getD_l hj] at this
          have := hL _ (getD_mem hj); omega
        · omega
      have c2 : (List.range (prios r).length).countP ((fun j => decide (OnWay (prios l ++ p :: prios r) (prios l).length j)) ∘ ((prios l).length + 1 + ·)) = 0 := by
        rw [List.countP_eq_zero]
        intro j hj
        have hj := List.mem_range.1 hj
        simp only [Function.comp, decide_eq_true_eq]
        rintro (⟨q, _⟩ | ⟨_, q⟩)
        · omega
        · have := q (prios l).length (by omega) (Nat.le_refl _)
          rw [getD_m, getD_r] at this
          have := hR _ (getD_mem hj); omega
      have c3 : OnWay (prios l ++ p :: prios r) (prios l).length (prios l).length := .inr ⟨Nat.le_refl _, fun k _ _ => by omega⟩
      rw [c1, c2]
      simp [c3]
    · rw [if_neg e1]
      by_cases e2 : i < l.size
      · rw [if_pos e2, way_eq l h3 i e2]
        have c1 : (List.range (prios l).length).countP (fun j => decide (OnWay (prios l ++ p :: prios r) i j)) = wayLength (prios l) i := by
          unfold wayLength
          apply List.countP_congr
          intro j hj
          simp only [decide_eq_true_eq]
          exact onWay_ll (by omega) (List.mem_range.1 hj)
        have c2 : (List.range (prios r).length).countP ((fun j => decide (OnWay (prios l ++ p :: prios r) i j)) ∘ ((prios l).length + 1 + ·)) = 0 := by
          rw [List.countP_eq_zero]
          intro j hj
          have hj := List.mem_range.1 hj
          simp only [Function.comp, decide_eq_true_eq]
          rintro (⟨q, _⟩ | ⟨_, q⟩)
          · omega
          · have := q (prios l).length (by omega) (by omega)
            rw [getD_m, getD_r] at this
            have := hR _ (getD_mem hj); omega
        have c3 : OnWay (prios l ++ p :: prios r) i (prios l).length := .inr ⟨by omega, fun k hk _ => by
          rw [getD_m, getD_l hk]; exact hL _ (getD_mem hk)⟩
        rw [c1, c2]
        simp [c3]
      · rw [if_neg e2, way_eq r h4 _ (by omega)]
        obtain ⟨i', rfl⟩ : ∃ i', i = (prios l).length + 1 + i' := ⟨i - l.size - 1, by omega⟩
        rw [show (prios l).length + 1 + i' - l.size - 1 = i' by omega]
        have c1 : (List.range (prios l).length).countP (fun j => decide (OnWay (prios l ++ p :: prios r) ((prios l).length + 1 + i') j)) = 0 := by
          rw [List.countP_eq_zero]
          intro j hj
          have hj := List.mem_range.1 hj
          simp only [decide_eq_true_eq]
          rintro (⟨_, q⟩ | ⟨q, _⟩)
          · have := q (prios l).length (by omega) hj
            rw [getD_m, getD_l hj] at this
            have := hL _ (getD_mem hj); omega
          · omega
        have c2 : (List.range (prios r).length).countP ((fun j => decide (OnWay (prios l ++ p :: prios r) ((prios l).length + 1 + i') j)) ∘ ((prios l).length + 1 + ·)) = wayLength (prios r) i' := by
          unfold wayLength
          apply List.countP_congr
          intro j hj
          simp only [Function.comp, decide_eq_true_eq]
          exact onWay_rr
        have c3 : OnWay (prios l ++ p :: prios r) ((prios l).length + 1 + i') (prios l).length := .inl ⟨by omega, fun k hk hlt => by
          rw [getD_m, show k = (prios l).length + 1 + (k - ((prios l).length + 1)) by omega, getD_r]
          exact hR _ (getD_mem (by omega))⟩
        rw [c1, c2]
        simp [c3]

/-! ### The generator -/

theorem mrand_state {s k : Nat} (h : (s + 1) % 2^32 = state k % 2^32) :
    ((mrand s).1 + 1) % 2^32 = state (k + 1) % 2^32 ∧ (mrand s).2 = draw k := by
  have e : ((s + 1) * 1103515245 + 12345) % 2^32 = state (k + 1) % 2^32 := by
    simp only [state, lcg]
    rw [Nat.add_mod, Nat.mul_mod, h, ← Nat.mul_mod, ← Nat.add_mod]
  have e2 : ((mrand s).1 + 1) % 2^32 = state (k + 1) % 2^32 := by
    simp only [mrand, u32]
    rw [← e]
    omega
  refine ⟨e2, ?_⟩
  have : (mrand s).2 = ((mrand s).1 + 1) % 2^32 % 2^31 := rfl
  rw [this, e2, draw]
  omega

/-- The list `t` with tree `T` is what `k` draws and the surviving priorities `ps` describe. -/
structure Shape (t : TL) (T : Tr) (s : Nat × List Nat) : Prop where
  wf : WF t T
  strict : Strict T
  prios : prios T = s.2
  seed : (t.seed + 1) % 2^32 = state s.1 % 2^32

theorem new_shape (itemsize : Nat) (ext : List Nat) : Shape (tlist_new itemsize ext) .nil (0, []) :=
  ⟨new_wf _ _, trivial, rfl, rfl⟩

theorem Shape.size {t T s} (h : Shape t T s) : T.size = s.2.length := by rw [← h.prios, prios_length]

theorem insert_shape {t : TL} {T : Tr} {k : Nat} {ps : List Nat} (h : Shape t T (k, ps)) (hs : ps.length + 1 < 2^32) {idx : Nat}
    (hi : idx ≤ ps.length) {n : Nat} (hf : Fresh t n) {x : List Byte} (hx : x.length = t.itemsize) :
    ∃ t' T', tlist_insert t idx x (some n) = .ok (t', 1) ∧ Shape t' T' (k + 1, insertAt ps idx (draw k)) ∧
      t'.itemsize = t.itemsize ∧ t'.heap.ext = t.heap.ext ∧ ∀ b, b ∈ T'.addrs ↔ b = n ∨ b ∈ T.addrs := by
  have hsz := h.size
  simp only at hsz
  obtain ⟨t1, T1, e1, e2, e3, e4, e5, e6, e7⟩ := insert_spec_tree h.wf (by omega) (idx := idx) (by omega) hf hx
  obtain ⟨m1, m2⟩ := mrand_state h.seed
  simp only at m2 m1
  have s1 := splitT_strict T idx 0 h.strict
  have s2 := splitT_prios1 T idx (by omega)
  refine ⟨t1, T1, e1, ⟨e2, ?_, ?_, ?_⟩, e3, e6, ?_⟩
  · rw [e7]; exact mergeT_strict _ _ (mergeT_strict _ _ s1.1 ⟨trivial, trivial, trivial, trivial⟩) s1.2
  · rw [e7, mergeT_prios, mergeT_prios, s2.1, s2.2, h.prios]; simp [Tlist.prios, insertAt, m2]
  · rw [e5]; exact m1
  · intro b
    rw [e7, (mergeT_lists _ _).1, (mergeT_lists _ _).1, ← (splitT_append T idx 0).1]
    simp only [addrs, List.mem_append, List.mem_cons, List.not_mem_nil, or_false]
    grind

theorem delete_shape {t : TL} {T : Tr} {k : Nat} {ps : List Nat} (h : Shape t T (k, ps)) (hs : ps.length < 2^32) {idx : Nat}
    (hi : idx < ps.length) :
    ∃ t' T', tlist_delete_impl t idx false = .ok (t', 1) ∧ Shape t' T' (k, ps.eraseIdx idx) := by
  have hsz := h.size
  simp only at hsz
  obtain ⟨t1, T1, e1, e2, e3, e4, e5, e6, e7, e8⟩ := delete_spec_tree h.wf (by omega) (idx := idx) (by omega)
  refine ⟨t1, T1, e1, e2, ?_, ?_, ?_⟩
  · rw [e8]; exact removeT_strict _ _ _ h.strict
  · rw [e8, removeT_prios _ _ _ (by omega) (by omega), h.prios]; rfl
  · rw [e7]; exact h.seed

theorem step_shape {t : TL} {T : Tr} {s : Nat × List Nat} (h : Shape t T s) (hs : s.2.length + 1 < 2^32) (op : Op) (hop : OpOk t op) :
    ∃ t' r T', step t op = .ok (t', r) ∧ Shape t' T' (place s op) ∧ (place s op).2.length ≤ s.2.length + 1 := by
  obtain ⟨k, ps⟩ := s
  have hsz := h.size
  simp only at hsz hs
  have same : ∀ {op : Op} {r : Res}, step t op = .ok (t, r) → place (k, ps) op = (k, ps) →
      ∃ t' r T', step t op = .ok (t', r) ∧ Shape t' T' (place (k, ps) op) ∧ (place (k, ps) op).2.length ≤ ps.length + 1 := by
    intro op r e1 e2
    exact ⟨t, r, T, e1, by rw [e2]; exact h, by rw [e2]; simp⟩
  have insl : ∀ i v, i ≤ ps.length → (insertAt ps i v).length = ps.length + 1 := by
    intro i v hi; simp [insertAt]; omega
  cases op with
  | insert idx x mem =>
    by_cases hi : idx ≤ ps.length
    · cases mem with
      | none =>
        refine same (r := .int 0) ?_ rfl
        simp only [step, tlist_insert, getsize_spec h.wf, ok_bind]
        rw [if_neg (by omega)]
        simp [new_item, pure_eq_ok, ok_bind]
      | some a =>
        obtain ⟨t', T', e1, e2, _⟩ := insert_shape h hs hi (hop.2 a rfl) hop.1
        refine ⟨t', .int 1, T', by simp only [step, e1]; rfl, ?_, ?_⟩
        · simp only [place]; rw [if_pos hi]; exact e2
        · simp only [place]; rw [if_pos hi, insl _ _ hi]; exact Nat.le_refl _
    · refine same (r := .int 0) ?_ ?_
      · simp only [step, tlist_insert, getsize_spec h.wf, ok_bind]
        rw [if_pos (by omega)]
        rfl
      · cases mem
        · rfl
        · simp only [place]; rw [if_neg hi]
  | append x mem =>
    have ap : tlist_append t x mem = tlist_insert t ps.length x mem := by
      unfold tlist_append; rw [getsize_spec h.wf, hsz]; rfl
    cases mem with
    | none =>
      refine same (r := .int 0) ?_ rfl
      simp only [step, ap, tlist_insert, getsize_spec h.wf, ok_bind]
      rw [if_neg (by omega)]
      simp [new_item, pure_eq_ok, ok_bind]
    | some a =>
      obtain ⟨t', T', e1, e2, _⟩ := insert_shape h hs (Nat.le_refl _) (hop.2 a rfl) hop.1
      refine ⟨t', .int 1, T', by simp only [step, ap, e1]; rfl, e2, ?_⟩
      simp only [place]; rw [insl _ _ (Nat.le_refl _)]; exact Nat.le_refl _
  | delete idx =>
    by_cases hi : idx < ps.length
    · obtain ⟨t', T', e1, e2⟩ := delete_shape h (by omega) hi
      exact ⟨t', .int 1, T', by simp only [step, e1]; rfl, e2, by simp only [place, List.length_eraseIdx]; split <;> omega⟩
    · refine same (r := .int 0) ?_ ?_
      · simp only [step, tlist_delete_impl, getsize_spec h.wf, ok_bind]
        rw [if_pos (by omega)]
        rfl
      · simp only [place]; rw [List.eraseIdx_of_length_le (by omega)]
  | get idx =>
    refine same (r := .item T.items[idx % 2^32]?) ?_ rfl
    simp only [step]
    rw [get_spec h.wf (by omega)]
    simp only [ok_bind]
    rw [content_spec h.wf]
    rfl
  | getsize =>
    refine same (r := .int T.size) ?_ rfl
    simp only [step, getsize_spec h.wf]
    rfl

theorem run_shape : ∀ (ops : List Op) (t : TL) (T : Tr) (s : Nat × List Nat), Shape t T s → s.2.length + ops.length < 2^32 → Valid t ops →
    ∃ t' rs T', run t ops = .ok (t', rs) ∧ Shape t' T' (ops.foldl place s) ∧ (ops.foldl place s).2.length ≤ s.2.length + ops.length
  | [], t, T, s, h, hs, hv => ⟨t, [], T, rfl, h, by simp⟩
  | op :: ops, t, T, s, h, hs, hv => by
    simp only [List.length_cons] at hs
    obtain ⟨t1, r, T1, h1, h2, h3⟩ := step_shape h (by omega) op (hv [] op ops rfl t [] rfl)
    obtain ⟨t2, rs, T2, r1, r2, r3⟩ := run_shape ops t1 T1 _ h2 (by omega) (by
      intro pre op' post he t' rs hr
      exact hv (op :: pre) op' post (by rw [he]; rfl) t' (r :: rs) (by simp only [run, h1, ok_bind, hr]; rfl))
    exact ⟨t2, r :: rs, T2, by simp only [run, h1, ok_bind, r1]; rfl, r2, by simp only [List.foldl_cons, List.length_cons]; omega⟩

theorem shape_lookup {t T s} (h : Shape t T s) (hs : s.2.length < 2^32) {i : Nat} (hi : i < s.2.length) (d : Nat) :
    getitem d t.heap (t.heap.ptr .root) i 0 = .error .hang ↔ d < wayLength s.2 i := by
  have hsz := h.size
  have := getitem_way T t.heap d i 0 h.wf.has (by omega) (by omega)
  rw [Nat.zero_add] at this
  rw [h.wf.root, this, way_eq T h.strict i (by omega), h.prios]

/-- The indices of insertions decide the priorities. -/
def arrange (ix : List Nat) : Nat × List Nat := ix.foldl (fun s i => (s.1 + 1, insertAt s.2 i (draw s.1))) (0, [])

theorem inserts_shape : ∀ (cs : List (Nat × List Byte × Nat)) (t : TL) (T : Tr) (s : Nat × List Nat), Shape t T s →
    s.2.length + cs.length < 2^32 → (∀ k < cs.length, (cs.map Prod.fst).getD k 0 ≤ s.2.length + k) → Lawful t.itemsize cs →
    (∀ c ∈ cs, ∀ b ∈ T.addrs, c.2.2 + (hdr + t.itemsize) ≤ b ∨ b + (hdr + t.itemsize) ≤ c.2.2) → t.heap.ext = [] →
    ∃ t' T', run t (inserts cs) = .ok (t', List.replicate cs.length (.int 1)) ∧
      Shape t' T' ((cs.map Prod.fst).foldl (fun s i => (s.1 + 1, insertAt s.2 i (draw s.1))) s)
  | [], t, T, s, h, hs, he, hl, hd, hx => ⟨t, T, rfl, h⟩
  | (i, x, a) :: cs, t, T, (k, ps), h, hs, he, hl, hd, hx => by
    simp only [List.length_cons] at hs he
    have hile : i ≤ ps.length := by have := he 0 (by omega); simpa using this
    have hfr : Fresh t a := by
      refine ⟨(hl.1 (i, x, a) (by simp)).2, ?_, by simp [hx]⟩
      intro b hb
      exact hd (i, x, a) (by simp) b ((h.wf.live b).1 hb)
    obtain ⟨t1, T1, e1, e2, e3, e4, e5⟩ := insert_shape h (by omega) hile hfr (hl.1 (i, x, a) (by simp)).1
    have hlen : (insertAt ps i (draw k)).length = ps.length + 1 := by simp [insertAt]; omega
    obtain ⟨hl1, hl2⟩ := hl
    obtain ⟨hl2, hl3⟩ := List.pairwise_cons.1 hl2
    obtain ⟨t2, T2, r1, r2⟩ := inserts_shape cs t1 T1 _ e2 (by simp only [hlen]; omega)
      (by
        intro j hj
        have := he (j + 1) (by omega)
        simp only [hlen]
        simp only [List.map_cons, List.getD_cons_succ] at this
        omega)
      (by rw [e3]; exact ⟨fun c hc => hl1 c (by simp [hc]), hl3⟩)
      (by
        rw [e3]
        intro c hcm b hb
        rcases (e5 b).1 hb with rfl | hb
        · have := hl2 c hcm; simp only at this; omega
        · exact hd c (by simp [hcm]) b hb) (by rw [e4, hx])
    refine ⟨t2, T2, ?_, r2⟩
    have hst : step t (.insert i x (some a)) = .ok (t1, .int 1) := by simp only [step]; rw [e1]; rfl
    have hr : inserts ((i, x, a) :: cs) = .insert i x (some a) :: inserts cs := rfl
    rw [hr, run, hst]
    simp only [ok_bind]
    rw [r1]
    rfl

end Ulz.Tlist
