import Verif.Proofs.Balance
set_option linter.unusedSimpArgs false
set_option linter.unusedVariables false
namespace Ulz.Tlist
open Spec Spec.Tr

theorem bind_hang {α β : Type} {x : C α} {f : α → C β} (hf : ∀ a, f a ≠ .error .hang) : (x >>= f) = .error .hang ↔ x = .error .hang := by
  cases x with
  | error e => simp only [error_bind]; constructor <;> (intro h; cases h; rfl)
  | ok a => simp only [ok_bind]; exact ⟨fun h => absurd h (hf a), fun h => by cases h⟩

theorem chk_hang (h : Heap) (a : Nat) : chk h a ≠ .error .hang := by
  unfold chk; split
  · simp
  · split <;> simp

theorem chkCell_hang (h : Heap) (c : Cell) : chkCell h c ≠ .error .hang := by
  cases c <;> simp [chkCell, chk_hang]

theorem load_hang (h : Heap) (c : Cell) : load h c ≠ .error .hang := by
  unfold load
  rw [Ne, bind_hang (by simp [pure_eq_ok])]
  exact chkCell_hang h c

theorem store_hang (h : Heap) (c : Cell) (v : Nat) : store h c v ≠ .error .hang := by
  unfold store
  rw [Ne, bind_hang (by simp [pure_eq_ok])]
  exact chkCell_hang h c

theorem cnt_hang (h : Heap) (a : Nat) : cnt h a ≠ .error .hang := by
  unfold cnt
  split
  · rw [Ne, bind_hang (by simp [pure_eq_ok])]; exact chk_hang h a
  · simp [pure_eq_ok]

theorem bind_ne {α β : Type} {x : C α} {f : α → C β} (hx : x ≠ .error .hang) (hf : ∀ a, f a ≠ .error .hang) : (x >>= f) ≠ .error .hang := by
  rw [Ne, bind_hang hf]; exact hx

theorem upd_cnt_hang (h : Heap) (a : Nat) : upd_cnt h a ≠ .error .hang := by
  unfold upd_cnt
  split
  · exact bind_ne (load_hang _ _) fun _ => bind_ne (cnt_hang _ _) fun _ => bind_ne (load_hang _ _) fun _ => bind_ne (cnt_hang _ _) fun _ => by simp [pure_eq_ok]
  · simp [pure_eq_ok]

/-- Nested calls of `merge`. -/
def mc : Tr → Tr → Nat
  | .nil, _ => 1
  | .node _ _ _ _ _, .nil => 1
  | .node a p d l r, .node a' p' d' l' r' => if p > p' then mc r (.node a' p' d' l' r') + 1 else mc (.node a p d l r) l' + 1
termination_by L R => sizeOf L + sizeOf R

theorem mc_nil_left (R : Tr) : mc .nil R = 1 := by rw [mc.eq_def]
theorem mc_nil_right (L : Tr) : mc L .nil = 1 := by cases L <;> rw [mc.eq_def]
theorem mc_node (a p d l r a' p' d' l' r') : mc (.node a p d l r) (.node a' p' d' l' r') =
    if p > p' then mc r (.node a' p' d' l' r') + 1 else mc (.node a p d l r) l' + 1 := by rw [mc.eq_def]

theorem mc_pos (L R : Tr) : 0 < mc L R := by
  cases L with
  | nil => rw [mc_nil_left]; omega
  | node => cases R with
    | nil => rw [mc_nil_right]; omega
    | node => rw [mc_node]; split <;> omega

theorem merge_hang (L R : Tr) : ∀ (d : Nat) (h : Heap) (t : Cell), Has h L → Has h R →
    (merge d h t L.rootA R.rootA = .error .hang ↔ d < mc L R) := by
  induction L, R using mc.induct with
  | case1 R =>
    intro d h t hL hR
    cases d with
    | zero => simp [merge, mc_nil_left]
    | succ d =>
      rw [mc_nil_left, merge]
      rw [if_pos (by simp [rootA])]
      refine ⟨fun e => absurd e (bind_ne (store_hang _ _ _) fun _ => bind_ne (load_hang _ _) fun _ => upd_cnt_hang _ _), fun e => by omega⟩
  | case2 a p dd l r =>
    intro d h t hL hR
    cases d with
    | zero => simp [merge, mc_nil_right]
    | succ d =>
      rw [mc_nil_right, merge]
      rw [if_pos (by simp [rootA])]
      refine ⟨fun e => absurd e (bind_ne (store_hang _ _ _) fun _ => bind_ne (load_hang _ _) fun _ => upd_cnt_hang _ _), fun e => by omega⟩
  | case3 a p dd l r a' p' dd' l' r' hp ih =>
    intro d h t hL hR
    cases d with
    | zero => simp [merge]; exact mc_pos _ _
    | succ d =>
      rw [mc_node, if_pos hp, merge, bind_hang (fun _ => bind_ne (load_hang _ _) fun _ => upd_cnt_hang _ _)]
      have hL' := hL
      have hR' := hR
      simp only [Has] at hL hR
      obtain ⟨l1, l2, l3, l4, l5, l6, l7, l8, l9⟩ := hL
      obtain ⟨q1, q2, q3, q4, q5, q6, q7, q8, q9⟩ := hR
      rw [rootA_node, rootA_node, if_neg (by simp [l1, q1]), chk_ok l1 l2]
      simp only [ok_bind]
      rw [chk_ok q1 q2]
      simp only [ok_bind]
      rw [if_pos (by rw [l3, q3]; exact hp), bind_hang (fun _ => store_hang _ _ _), l7]
      have := ih d h (.right a) l9 hR'
      rw [rootA_node] at this
      rw [this]; omega
  | case4 a p dd l r a' p' dd' l' r' hp ih =>
    intro d h t hL hR
    cases d with
    | zero => simp [merge]; exact mc_pos _ _
    | succ d =>
      rw [mc_node, if_neg hp, merge, bind_hang (fun _ => bind_ne (load_hang _ _) fun _ => upd_cnt_hang _ _)]
      have hL' := hL
      have hR' := hR
      simp only [Has] at hL hR
      obtain ⟨l1, l2, l3, l4, l5, l6, l7, l8, l9⟩ := hL
      obtain ⟨q1, q2, q3, q4, q5, q6, q7, q8, q9⟩ := hR
      rw [rootA_node, rootA_node, if_neg (by simp [l1, q1]), chk_ok l1 l2]
      simp only [ok_bind]
      rw [chk_ok q1 q2]
      simp only [ok_bind]
      rw [if_neg (by rw [l3, q3]; exact hp), bind_hang (fun _ => store_hang _ _ _), q6]
      have := ih d h (.left a') hL' q8
      rw [rootA_node] at this
      rw [this]; omega

/-- Nested calls of `split`, without the last one for NULL. -/
def sc : Tr → Nat → Nat
  | .nil, _ => 0
  | .node _ _ _ l r, g => if g ≤ l.size then sc l g + 1 else sc r (g - l.size - 1) + 1

theorem split_hang (T : Tr) : ∀ (d : Nat) (h : Heap) (cl cr : Cell) (g add : Nat), Has h T → add + T.size < 2^32 →
    (split d h T.rootA cl cr (add + g) add = .error .hang ↔ d < sc T g + 1) := by
  induction T with
  | nil =>
    intro d h cl cr g add _ _
    cases d with
    | zero => simp [split]
    | succ d =>
      rw [split, if_pos (show (nil : Tr).rootA = 0 from rfl)]
      refine ⟨fun e => absurd e (bind_ne (store_hang _ _ _) fun _ => store_hang _ _ _), fun e => by simp only [sc] at e; omega⟩
  | node a p dd l r ihl ihr =>
    intro d h cl cr g add hT hs
    simp only [Has] at hT
    obtain ⟨l1, l2, l3, l4, l5, l6, l7, l8, l9⟩ := hT
    simp only [size] at hs
    cases d with
    | zero => simp [split]
    | succ d =>
      have ca1 : chkCell h (.left a) = .ok () := chk_ok l1 l2
      have ca2 : chkCell h (.right a) = .ok () := chk_ok l1 l2
      rw [rootA_node, split, if_neg l1, load_ok ca1]
      simp only [ok_bind, l6, cnt_has l8]
      rw [show u32 (add + l.size) = add + l.size from Nat.mod_eq_of_lt (by omega),
        show u32 (add + 1 + l.size) = add + 1 + l.size from Nat.mod_eq_of_lt (by omega), bind_hang (fun _ => upd_cnt_hang _ _)]
      simp only [sc]
      by_cases hg : g ≤ l.size
      · rw [if_pos (by omega), if_pos hg, bind_hang (fun _ => store_hang _ _ _), ihl d h cl (.left a) g add l8 (by omega)]
        omega
      · rw [if_neg (by omega), if_neg hg, load_ok ca2]
        simp only [ok_bind, l7]
        rw [bind_hang (fun _ => store_hang _ _ _), show add + g = (add + 1 + l.size) + (g - l.size - 1) by omega,
          ihr d h (.right a) cr _ _ l9 (by omega)]
        omega

/-! ### More room changes nothing -/

theorem bind_keep {α β : Type} {x y : C α} {f f' : α → C β} (h1 : x ≠ .error .hang → y = x)
    (h2 : ∀ a, f a ≠ .error .hang → f' a = f a) (h : (x >>= f) ≠ .error .hang) : (y >>= f') = (x >>= f) := by
  have hx : x ≠ .error .hang := by intro e; rw [e] at h; exact h rfl
  rw [h1 hx]
  cases x with
  | error e => rfl
  | ok a => simp only [ok_bind] at h ⊢; exact h2 a h

theorem ite_keep {α : Type} {c : Prop} [Decidable c] {x y x' y' : C α} (h1 : x ≠ .error .hang → x' = x) (h2 : y ≠ .error .hang → y' = y)
    (h : (if c then x else y) ≠ .error .hang) : (if c then x' else y') = (if c then x else y) := by
  by_cases hc : c
  · simp only [hc, if_true] at h ⊢; exact h1 h
  · simp only [hc, if_false] at h ⊢; exact h2 h

theorem merge_keep : ∀ (d : Nat) (h : Heap) (t : Cell) (l r : Nat), merge d h t l r ≠ .error .hang → merge (d + 1) h t l r = merge d h t l r
  | 0, h, t, l, r, hn => absurd rfl hn
  | d + 1, h, t, l, r, hn => by
    rw [merge] at hn ⊢
    rw [merge]
    refine bind_keep (ite_keep (fun _ => rfl) (bind_keep (fun _ => rfl) fun _ => bind_keep (fun _ => rfl) fun _ =>
      ite_keep (bind_keep (merge_keep d _ _ _ _) fun _ _ => rfl) (bind_keep (merge_keep d _ _ _ _) fun _ _ => rfl))) (fun _ _ => rfl) hn

theorem split_keep : ∀ (d : Nat) (h : Heap) (t : Nat) (l r : Cell) (key add : Nat), split d h t l r key add ≠ .error .hang →
    split (d + 1) h t l r key add = split d h t l r key add
  | 0, h, t, l, r, key, add, hn => absurd rfl hn
  | d + 1, h, t, l, r, key, add, hn => by
    rw [split] at hn ⊢
    rw [split]
    refine ite_keep (fun _ => rfl) (bind_keep (fun _ => rfl) fun _ => bind_keep (fun _ => rfl) fun _ =>
      bind_keep (ite_keep (bind_keep (fun _ => rfl) fun _ => bind_keep (split_keep d _ _ _ _ _ _) fun _ _ => rfl)
        (bind_keep (fun _ => rfl) fun _ => bind_keep (split_keep d _ _ _ _ _ _) fun _ _ => rfl)) fun _ _ => rfl) hn

theorem getitem_keep : ∀ (d : Nat) (h : Heap) (t idx add : Nat), getitem d h t idx add ≠ .error .hang →
    getitem (d + 1) h t idx add = getitem d h t idx add
  | 0, h, t, idx, add, hn => absurd rfl hn
  | d + 1, h, t, idx, add, hn => by
    rw [getitem] at hn ⊢
    rw [getitem]
    exact ite_keep (fun _ => rfl) (bind_keep (fun _ => rfl) fun _ => bind_keep (fun _ => rfl) fun _ => ite_keep (fun _ => rfl)
      (ite_keep (bind_keep (fun _ => rfl) fun _ => getitem_keep d _ _ _ _) (bind_keep (fun _ => rfl) fun _ => getitem_keep d _ _ _ _))) hn

theorem removeAt_keep : ∀ (d : Nat) (h : Heap) (t : Cell) (idx add : Nat), removeAt d h t idx add ≠ .error .hang →
    removeAt (d + 1) h t idx add = removeAt d h t idx add
  | 0, h, t, idx, add, hn => absurd rfl hn
  | d + 1, h, t, idx, add, hn => by
    rw [removeAt] at hn ⊢
    rw [removeAt]
    exact bind_keep (fun _ => rfl) (fun _ => ite_keep (fun _ => rfl) (bind_keep (fun _ => rfl) fun _ => bind_keep (fun _ => rfl) fun _ =>
      bind_keep (fun _ => rfl) fun _ => bind_keep (fun _ => rfl) fun _ => bind_keep (fun _ => rfl) fun _ =>
      ite_keep (merge_keep d _ _ _ _) (ite_keep
        (bind_keep (fun _ => rfl) fun _ => bind_keep (fun _ => rfl) fun _ => bind_keep (merge_keep d _ _ _ _) fun _ _ => rfl) (ite_keep
        (bind_keep (fun _ => rfl) fun _ => bind_keep (fun _ => rfl) fun _ => bind_keep (merge_keep d _ _ _ _) fun _ _ => rfl) (ite_keep
        (bind_keep (removeAt_keep d _ _ _ _) fun _ _ => rfl) (bind_keep (removeAt_keep d _ _ _ _) fun _ _ => rfl)))))) hn

theorem insert_keep (d : Nat) (h : Heap) (t : Cell) (n idx : Nat) (hn : insert d h t n idx ≠ .error .hang) :
    insert (d + 1) h t n idx = insert d h t n idx := by
  unfold insert at hn ⊢
  exact bind_keep (fun _ => rfl) (fun _ => bind_keep (split_keep d _ _ _ _ _ _) fun _ => bind_keep (fun _ => rfl) fun _ =>
    bind_keep (merge_keep d _ _ _ _) fun _ => bind_keep (fun _ => rfl) fun _ => bind_keep (fun _ => rfl) fun _ => merge_keep d _ _ _ _) hn

theorem insert_room_keep (d : Nat) (t : TL) (idx : Nat) (x : List Byte) (mem : Option Nat) (hn : tlist_insert_room d t idx x mem ≠ .error .hang) :
    tlist_insert_room (d + 1) t idx x mem = tlist_insert_room d t idx x mem := by
  unfold tlist_insert_room at hn ⊢
  exact bind_keep (fun _ => rfl) (fun _ => ite_keep (fun _ => rfl) (bind_keep (fun _ => rfl) fun _ => ite_keep (fun _ => rfl)
    (bind_keep (insert_keep d _ _ _ _) fun _ _ => rfl))) hn

theorem delete_room_keep (d : Nat) (t : TL) (idx : Nat) (hn : tlist_delete_room d t idx ≠ .error .hang) :
    tlist_delete_room (d + 1) t idx = tlist_delete_room d t idx := by
  unfold tlist_delete_room at hn ⊢
  exact bind_keep (fun _ => rfl) (fun _ => ite_keep (fun _ => rfl) (bind_keep (getitem_keep d _ _ _ _) fun _ =>
    bind_keep (removeAt_keep d _ _ _ _) fun _ _ => rfl)) hn

theorem get_room_keep (d : Nat) (t : TL) (idx : Nat) (hn : tlist_get_room d t idx ≠ .error .hang) :
    tlist_get_room (d + 1) t idx = tlist_get_room d t idx := by
  unfold tlist_get_room at hn ⊢
  exact bind_keep (getitem_keep d _ _ _ _) (fun _ _ => rfl) hn

/-- What more room does not change has one result. -/
theorem keep_all {α : Type} {f : Nat → C α} (hf : ∀ d, f d ≠ .error .hang → f (d + 1) = f d) {d e : Nat} (hd : f d ≠ .error .hang)
    (he : f e ≠ .error .hang) : f d = f e := by
  have up : ∀ d, f d ≠ .error .hang → ∀ k, f (d + k) = f d := by
    intro d hd k
    induction k with
    | zero => rfl
    | succ k ih => rw [← Nat.add_assoc, hf _ (by rw [ih]; exact hd), ih]
  rcases Nat.le_total d e with h | h
  · obtain ⟨k, rfl⟩ := Nat.exists_eq_add_of_le h; rw [up d hd k]
  · obtain ⟨k, rfl⟩ := Nat.exists_eq_add_of_le h; rw [up e he k]

/-! ### Spines -/

/-- Nodes down the right side. -/
def spineR : Tr → Nat
  | .nil => 0
  | .node _ _ _ _ r => spineR r + 1

/-- Nodes down the left side. -/
def spineL : Tr → Nat
  | .nil => 0
  | .node _ _ _ l _ => spineL l + 1

theorem sc_split (T : Tr) : ∀ g add, g ≤ T.size → sc T g = spineR (splitT T (add + g) add).1 + spineL (splitT T (add + g) add).2 := by
  induction T with
  | nil => intros; simp [sc, splitT, spineR, spineL]
  | node a p d l r ihl ihr =>
    intro g add hg
    simp only [size] at hg
    simp only [sc, splitT]
    by_cases h : g ≤ l.size
    · rw [if_pos h, if_pos (by omega)]
      have := ihl g add h
      simp only [spineL]; omega
    · rw [if_neg h, if_neg (by omega)]
      have := ihr (g - l.size - 1) (add + 1 + l.size) (by omega)
      rw [show add + 1 + l.size + (g - l.size - 1) = add + g by omega] at this
      simp only [spineR]; omega

theorem mc_le (L R : Tr) : mc L R ≤ 1 ∨ mc L R ≤ spineR L + spineL R := by
  induction L, R using mc.induct with
  | case1 R => left; rw [mc_nil_left]; omega
  | case2 a p d l r => left; rw [mc_nil_right]; omega
  | case3 a p d l r a' p' d' l' r' h ih =>
    right; rw [mc_node, if_pos h]; simp only [spineR, spineL] at ih ⊢
    rcases ih with ih | ih <;> omega
  | case4 a p d l r a' p' d' l' r' h ih =>
    right; rw [mc_node, if_neg h]; simp only [spineR, spineL] at ih ⊢
    rcases ih with ih | ih <;> omega

theorem spineR_merge_node (L : Tr) (n p : Nat) (x : List Byte) : spineR (mergeT L (.node n p x .nil .nil)) ≤ spineR L + 1 := by
  induction L with
  | nil => rw [mergeT_nil_left]; simp [spineR]
  | node a q d l r ihl ihr =>
    rw [mergeT_node]
    split
    · simp only [spineR]; omega
    · simp [spineR]

theorem mc_node_le (L : Tr) (n p : Nat) (x : List Byte) : mc L (.node n p x .nil .nil) ≤ spineR L + 1 := by
  rcases mc_le L (.node n p x .nil .nil) with h | h
  · omega
  · simp only [spineL] at h; omega

theorem mc_second (L R : Tr) (n p : Nat) (x : List Byte) : mc (mergeT L (.node n p x .nil .nil)) R ≤ spineR L + spineL R + 1 := by
  have h1 := spineR_merge_node L n p x
  rcases mc_le (mergeT L (.node n p x .nil .nil)) R with h | h <;> omega

/-! ### Insertion -/

theorem insert_room_hang {t : TL} {T : Tr} (h : WF t T) (hs : T.size + 1 < 2^32) {idx : Nat} (hi : idx ≤ T.size) {n : Nat}
    (hf : Fresh t n) {x : List Byte} (hx : x.length = t.itemsize) (d : Nat) :
    tlist_insert_room d t idx x (some n) = .error .hang ↔ d < sc T idx + 1 := by
  unfold tlist_insert_room
  rw [getsize_spec h]
  simp only [ok_bind]
  rw [if_neg (by omega)]
  obtain ⟨h1, e1, e2, e3, e4, e5, e6, e8⟩ := new_item_spec h hf hx
  generalize (mrand t.seed).1 = seed at *
  generalize (mrand t.seed).2 = p at *
  rw [e1]
  simp only [ok_bind]
  rw [if_neg hf.1, bind_hang (by simp [pure_eq_ok])]
  unfold insert
  rw [load_ok (h := h1) (c := .root) rfl, e4]
  simp only [ok_bind]
  rw [show u32 idx = idx from Nat.mod_eq_of_lt (by omega)]
  have hsp := split_hang T d h1 .t1 .t2 idx 0 e2 (by omega)
  rw [Nat.zero_add] at hsp
  by_cases hd : d < sc T idx + 1
  · rw [hsp.2 hd]; simp only [error_bind, hd]
  have hsn : split d h1 T.rootA .t1 .t2 idx 0 ≠ .error .hang := fun e => hd (hsp.1 e)
  simp only [hd, iff_false]
  obtain ⟨h2, s1, s2, s3, s4, s5, s6⟩ := split_spec (depth T.size) h1 T .t1 .t2 idx 0 e2 h.nodup (by intro b _; simp)
    (by intro b _; simp) (by simp) rfl rfl (by simp [depth]) (by omega)
  have hspl : split d h1 T.rootA .t1 .t2 idx 0 = .ok h2 := by
    rw [← s1]
    exact keep_all (f := fun d => split d h1 T.rootA .t1 .t2 idx 0) (fun d => split_keep d _ _ _ _ _ _) hsn (by rw [s1]; simp)
  rw [hspl]
  simp only [ok_bind]
  have hsc := sc_split T idx 0 hi
  rw [Nat.zero_add] at hsc
  generalize hX : (splitT T idx 0).1 = X at s2 s4 hsc
  generalize hY : (splitT T idx 0).2 = Y at s3 s5 hsc
  have happ := splitT_append T idx 0
  have hsz := splitT_size T idx 0
  have hsz1 := splitT_size1 T idx 0 (by omega) (by omega)
  rw [hX, hY] at happ hsz
  rw [hX] at hsz1
  have hnd : (X.addrs ++ Y.addrs).Nodup := by rw [happ.1]; exact h.nodup
  have hmem : ∀ b, b ∈ X.addrs ∨ b ∈ Y.addrs ↔ b ∈ T.addrs := by
    intro b; rw [← happ.1]; simp
  rw [load_ok (h := h2) (c := .t1) rfl, s2]
  simp only [ok_bind]
  have hN2 : Has h2 (.node n p x .nil .nil) := Has.frame s6 e3 (by intro b hb; simp [addrs] at hb; subst hb; exact e6) (by simp)
  simp only [List.nodup_append] at hnd
  obtain ⟨h3, m1, m2, m3, m4⟩ := merge_spec (depth T.size) h2 .root X (.node n p x .nil .nil) s4 hN2
    (by simp only [addrs, List.nil_append, List.nodup_append, List.mem_singleton]
        refine ⟨hnd.1, by simp, ?_⟩
        intro a ha b hb e; subst hb; subst e; exact e6 ((hmem _).1 (Or.inl ha)))
    (by intro b _; simp) rfl (by simp [size, depth]; omega) (by simp [size]; omega)
  have hm1 := merge_hang X (.node n p x .nil .nil) d h2 .root s4 hN2
  have hc1 := mc_node_le X n p x
  rw [rootA_node] at m1 hm1
  have hmg : merge d h2 .root X.rootA n = .ok h3 := by
    rw [← m1]
    exact keep_all (f := fun d => merge d h2 .root X.rootA n) (fun d => merge_keep d _ _ _ _) (fun e => by have := hm1.1 e; omega)
      (by rw [m1]; simp)
  rw [hmg]
  simp only [ok_bind]
  rw [load_ok (h := h3) (c := .root) rfl, load_ok (h := h3) (c := .t2) rfl, m2]
  simp only [ok_bind]
  have e7 : h3.ptr .t2 = Y.rootA := by
    rw [m4.ptr, s3]
    rintro (hc | ⟨b, _, hc | hc⟩)
    · simp at hc
    · cases hc
    · cases hc
  rw [e7]
  have hY3 : Has h3 Y := Has.frame m4 s5 (by
    intro b hb hm
    simp only [addrs, List.nil_append, List.mem_append, List.mem_singleton] at hm
    rcases hm with hm | hm
    · exact hnd.2.2 b hm b hb rfl
    · subst hm; exact e6 ((hmem _).1 (Or.inr hb))) (by simp)
  rw [merge_hang _ Y d h3 .root m3 hY3]
  have := mc_second X Y n p x
  omega

/-! ### Deletion -/

/-- Position of the root. -/
def rootPos : Tr → Option Nat
  | .nil => none
  | .node _ _ _ l _ => some l.size

/-- Nested calls of `remove`. -/
def rc : Tr → Nat → Nat
  | .nil, _ => 1
  | .node _ _ _ l r, i =>
    if i = l.size then mc l r + 1
    else if i < l.size then (if rootPos l = some i then rc l i else rc l i + 1)
    else (if rootPos r = some (i - l.size - 1) then rc r (i - l.size - 1) else rc r (i - l.size - 1) + 1)

theorem way_pos (T : Tr) (i : Nat) : 0 < way T i := by
  cases T with
  | nil => simp [way]
  | node => simp only [way]; split <;> (try split) <;> omega

theorem rootPos_way {T : Tr} {i : Nat} (h : rootPos T = some i) : way T i = 1 ∧ 2 ≤ rc T i := by
  cases T with
  | nil => simp [rootPos] at h
  | node a p d l r =>
    simp only [rootPos, Option.some.injEq] at h
    have := mc_pos l r
    simp only [way, rc]
    rw [if_pos h.symm, if_pos h.symm]; omega

theorem way_le_rc (T : Tr) : ∀ i, i < T.size → way T i ≤ rc T i := by
  induction T with
  | nil => intro i hi; simp [size] at hi
  | node a p d l r ihl ihr =>
    intro i hi
    simp only [size] at hi
    simp only [way, rc]
    by_cases e1 : i = l.size
    · rw [if_pos e1, if_pos e1]; omega
    · rw [if_neg e1, if_neg e1]
      by_cases e2 : i < l.size
      · rw [if_pos e2, if_pos e2]
        by_cases e3 : rootPos l = some i
        · have := rootPos_way e3; rw [if_pos e3]; omega
        · have := ihl i e2; rw [if_neg e3]; omega
      · rw [if_neg e2, if_neg e2]
        by_cases e3 : rootPos r = some (i - l.size - 1)
        · have := rootPos_way e3; rw [if_pos e3]; omega
        · have := ihr (i - l.size - 1) (by omega); rw [if_neg e3]; omega

/-- Nodes around the one that is removed: those above it and the inner sides of its subtrees. -/
def around : Tr → Nat → Nat
  | .nil, _ => 0
  | .node _ _ _ l r, i => if i = l.size then spineR l + spineL r else if i < l.size then around l i + 1 else around r (i - l.size - 1) + 1

theorem rc_le (T : Tr) : ∀ i, i < T.size → rc T i ≤ around T i + 2 := by
  induction T with
  | nil => intro i hi; simp [size] at hi
  | node a p d l r ihl ihr =>
    intro i hi
    simp only [size] at hi
    simp only [around, rc]
    by_cases e1 : i = l.size
    · rw [if_pos e1, if_pos e1]; rcases mc_le l r with h | h <;> omega
    · rw [if_neg e1, if_neg e1]
      by_cases e2 : i < l.size
      · rw [if_pos e2, if_pos e2]
        have := ihl i e2
        split <;> omega
      · rw [if_neg e2, if_neg e2]
        have := ihr (i - l.size - 1) (by omega)
        split <;> omega

theorem childKey_pos {h : Heap} {T : Tr} (hT : Has h T) {base i : Nat} (hs : base + T.size < 2^32) (hi : i < 2^32 - 1) :
    ∃ k, childKey h T.rootA base = .ok k ∧ (k = i ↔ ∃ j, rootPos T = some j ∧ base + j = i) := by
  rw [childKey_has hT hs]
  refine ⟨_, rfl, ?_⟩
  cases T with
  | nil => simp [keyT, rootPos]; omega
  | node a p d l r => simp [keyT, rootPos]; omega

theorem removeAt_hang (T : Tr) : ∀ (d : Nat) (h : Heap) (t : Cell) (i add : Nat), Has h T → chkCell h t = .ok () → h.ptr t = T.rootA →
    i < T.size → add + T.size < 2^32 → (removeAt d h t (add + i) add = .error .hang ↔ d < rc T i) := by
  induction T with
  | nil => intro d h t i add _ _ _ hi; simp [size] at hi
  | node a p dd l r ihl ihr =>
    intro d h t i add hT hck hpt hi hs
    simp only [Has] at hT
    obtain ⟨l1, l2, l3, l4, l5, l6, l7, l8, l9⟩ := hT
    simp only [size] at hs hi
    have hpos : 0 < rc (.node a p dd l r) i := Nat.lt_of_lt_of_le (way_pos _ _) (way_le_rc _ _ (by simp only [size]; omega))
    cases d with
    | zero => simp [removeAt, hpos]
    | succ d =>
      have ca1 : chkCell h (.left a) = .ok () := chk_ok l1 l2
      have ca2 : chkCell h (.right a) = .ok () := chk_ok l1 l2
      rw [removeAt, load_ok hck, hpt, rootA_node]
      simp only [ok_bind]
      rw [if_neg l1, load_ok ca1, load_ok ca2]
      simp only [ok_bind, l6, l7, cnt_has l8]
      rw [show u32 (add + l.size) = add + l.size from Nat.mod_eq_of_lt (by omega),
        show u32 (add + l.size + 1) = add + l.size + 1 from Nat.mod_eq_of_lt (by omega)]
      obtain ⟨kl, ek, hkl⟩ := childKey_pos l8 (base := add) (i := add + i) (by omega) (by omega)
      obtain ⟨kr, er, hkr⟩ := childKey_pos l9 (base := add + l.size + 1) (i := add + i) (by omega) (by omega)
      rw [ek, er]
      simp only [ok_bind, rc]
      by_cases e1 : i = l.size
      · rw [if_pos (by omega), if_pos e1, merge_hang l r d h t l8 l9]; omega
      · rw [if_neg (by omega), if_neg e1]
        by_cases e2 : i < l.size
        · rw [if_pos e2]
          by_cases e3 : rootPos l = some i
          · rw [if_pos (hkl.2 ⟨i, e3, rfl⟩), if_pos e3]
            cases l with
            | nil => simp [rootPos] at e3
            | node a' p' d' ll lr =>
              simp only [rootPos, Option.some.injEq] at e3
              simp only [Has] at l8
              obtain ⟨m1, m2, m3, m4, m5, m6, m7, m8, m9⟩ := l8
              rw [rootA_node, load_ok (h := h) (c := .left a') (chk_ok m1 m2), load_ok (h := h) (c := .right a') (chk_ok m1 m2)]
              simp only [ok_bind, m6, m7]
              rw [bind_hang (fun _ => bind_ne (load_hang _ _) fun _ => bind_ne (store_hang _ _ _) fun _ => upd_cnt_hang _ _),
                merge_hang ll lr d h .n m8 m9]
              simp only [rc]; rw [if_pos e3.symm]; omega
          · have hne : ¬ kr = add + i := by
              rw [hkr]; rintro ⟨j, _, hj⟩; omega
            rw [if_neg (by rw [hkl]; rintro ⟨j, hj, e⟩; exact e3 (by rw [hj]; congr 1; omega)), if_neg hne, if_neg e3,
              if_neg (by omega), bind_hang (fun _ => upd_cnt_hang _ _), ihl d h (.left a) i add l8 ca1 l6 e2 (by omega)]
            omega
        · rw [if_neg e2]
          have hnl : ¬ kl = add + i := by
            rw [hkl]; rintro ⟨j, hj, e⟩
            cases l with
            | nil => simp [rootPos] at hj
            | node a' p' d' ll lr => simp only [rootPos, Option.some.injEq] at hj; simp only [size] at e2; omega
          rw [if_neg hnl]
          obtain ⟨i', rfl⟩ : ∃ i', i = l.size + 1 + i' := ⟨i - l.size - 1, by omega⟩
          rw [show l.size + 1 + i' - l.size - 1 = i' by omega]
          by_cases e3 : rootPos r = some i'
          · rw [if_pos (hkr.2 ⟨i', e3, by omega⟩), if_pos e3]
            cases r with
            | nil => simp [rootPos] at e3
            | node a' p' d' rl rr =>
              simp only [rootPos, Option.some.injEq] at e3
              simp only [Has] at l9
              obtain ⟨m1, m2, m3, m4, m5, m6, m7, m8, m9⟩ := l9
              rw [rootA_node, load_ok (h := h) (c := .left a') (chk_ok m1 m2), load_ok (h := h) (c := .right a') (chk_ok m1 m2)]
              simp only [ok_bind, m6, m7]
              rw [bind_hang (fun _ => bind_ne (load_hang _ _) fun _ => bind_ne (store_hang _ _ _) fun _ => upd_cnt_hang _ _),
                merge_hang rl rr d h .n m8 m9]
              simp only [rc]; rw [if_pos e3.symm]; omega
          · rw [if_neg (by rw [hkr]; rintro ⟨j, hj, e⟩; exact e3 (by rw [hj]; congr 1; omega)), if_neg e3,
              if_pos (by omega), bind_hang (fun _ => upd_cnt_hang _ _),
              show add + (l.size + 1 + i') = (add + l.size + 1) + i' by omega,
              ihr d h (.right a) i' _ l9 ca2 l7 (by omega) (by omega)]
            omega

theorem delete_room_hang {t : TL} {T : Tr} (h : WF t T) (hs : T.size < 2^32) {i : Nat} (hi : i < T.size) (d : Nat) :
    tlist_delete_room d t i = .error .hang ↔ d < rc T i := by
  unfold tlist_delete_room
  rw [getsize_spec h]
  simp only [ok_bind]
  rw [if_neg (by omega), show u32 i = i from Nat.mod_eq_of_lt (by omega), h.root]
  have hg := getitem_way T t.heap d i 0 h.has hi (by omega)
  have hr := removeAt_hang T d t.heap .root i 0 h.has rfl h.root hi (by omega)
  rw [Nat.zero_add] at hg hr
  have hw := way_le_rc T i hi
  by_cases hd : d < way T i
  · rw [hg.2 hd]; simp only [error_bind, true_iff]; omega
  · have : getitem d t.heap T.rootA i 0 = .ok ((T.addrs[i]?).getD 0) := by
      have h1 := getitem_spec (depth T.size) t.heap T i 0 h.has (by simp [depth]) (by omega) (by omega)
      rw [Nat.sub_zero] at h1
      rw [← h1]
      exact keep_all (f := fun d => getitem d t.heap T.rootA i 0) (fun d => getitem_keep d _ _ _ _) (fun e => hd (hg.1 e)) (by rw [h1]; simp)
    rw [this]
    simp only [ok_bind]
    rw [bind_hang, hr]
    intro a
    refine bind_ne ?_ fun _ => by simp [pure_eq_ok]
    unfold hfree
    split
    · simp [pure_eq_ok]
    · split <;> simp [pure_eq_ok]

/-! ### What can be seen from a gap -/

theorem sees_left {L R : List Nat} {p a b j : Nat} (hb : b ≤ L.length) (ha : a ≤ b) (hj : j < L.length) :
    Sees (L ++ p :: R) a b j ↔ Sees L a b j := by
  unfold Sees
  rw [getD_l hj]
  constructor
  · rintro (⟨h1, h2⟩ | ⟨h1, h2⟩)
    · exact .inl ⟨h1, fun k hk hjk => by have := h2 k hk hjk; rwa [getD_l (by omega)] at this⟩
    · exact .inr ⟨h1, fun k hk hjk => by have := h2 k hk hjk; rwa [getD_l (by omega)] at this⟩
  · rintro (⟨h1, h2⟩ | ⟨h1, h2⟩)
    · exact .inl ⟨h1, fun k hk hjk => by rw [getD_l (by omega)]; exact h2 k hk hjk⟩
    · exact .inr ⟨h1, fun k hk hjk => by rw [getD_l (by omega)]; exact h2 k hk hjk⟩

theorem sees_right {L R : List Nat} {p a b j : Nat} :
    Sees (L ++ p :: R) (L.length + 1 + a) (L.length + 1 + b) (L.length + 1 + j) ↔ Sees R a b j := by
  unfold Sees
  rw [getD_r]
  constructor
  · rintro (⟨h1, h2⟩ | ⟨h1, h2⟩)
    · exact .inl ⟨by omega, fun k hk hjk => by have := h2 (L.length + 1 + k) (by omega) (by omega); rwa [getD_r] at this⟩
    · exact .inr ⟨by omega, fun k hk hjk => by have := h2 (L.length + 1 + k) (by omega) (by omega); rwa [getD_r] at this⟩
  · rintro (⟨h1, h2⟩ | ⟨h1, h2⟩)
    · exact .inl ⟨by omega, fun k hk hjk => by
        rw [show k = L.length + 1 + (k - (L.length + 1)) by omega, getD_r]; exact h2 _ (by omega) (by omega)⟩
    · exact .inr ⟨by omega, fun k hk hjk => by
        rw [show k = L.length + 1 + (k - (L.length + 1)) by omega, getD_r]; exact h2 _ (by omega) (by omega)⟩

theorem seen_parts (L R : List Nat) (p a b : Nat) : seen (L ++ p :: R) a b =
    (List.range L.length).countP (fun j => Sees (L ++ p :: R) a b j) +
    ((if Sees (L ++ p :: R) a b L.length then 1 else 0) +
      (List.range R.length).countP (fun j => Sees (L ++ p :: R) a b (L.length + 1 + j))) := by
  unfold seen
  rw [show (L ++ p :: R).length = L.length + (R.length + 1) by simp, range_parts, List.countP_append, List.countP_cons, List.countP_map]
  simp only [Function.comp_def, decide_eq_true_eq]
  omega

theorem seen_left {L R : List Nat} {p a b : Nat} (hL : ∀ q ∈ L, q ≤ p) (hR : ∀ q ∈ R, q < p) (ha : a ≤ b) (hb : b ≤ L.length) :
    seen (L ++ p :: R) a b = seen L a b + 1 := by
  rw [seen_parts, if_pos (.inr ⟨hb, fun k hk _ => by rw [getD_m, getD_l hk]; exact hL _ (getD_mem hk)⟩)]
  have c1 : (List.range L.length).countP (fun j => decide (Sees (L ++ p :: R) a b j)) = seen L a b := by
    unfold seen
    apply List.countP_congr
    intro j hj
    simp only [decide_eq_true_eq]
    exact sees_left hb ha (List.mem_range.1 hj)
  have c2 : (List.range R.length).countP (fun j => decide (Sees (L ++ p :: R) a b (L.length + 1 + j))) = 0 := by
    rw [List.countP_eq_zero]
    intro j hj
    have hj := List.mem_range.1 hj
    simp only [decide_eq_true_eq]
    rintro (⟨q, _⟩ | ⟨_, q⟩)
    · omega
    · have := q L.length (by omega) (by omega)
      rw [getD_m, getD_r] at this
      have := hR _ (getD_mem hj); omega
  rw [c1, c2]

theorem seen_right {L R : List Nat} {p a b : Nat} (hL : ∀ q ∈ L, q ≤ p) (hR : ∀ q ∈ R, q < p) (ha : a ≤ b) (hb : b ≤ R.length) :
    seen (L ++ p :: R) (L.length + 1 + a) (L.length + 1 + b) = seen R a b + 1 := by
  rw [seen_parts, if_pos (.inl ⟨by omega, fun k hk hlt => by
    rw [getD_m, show k = L.length + 1 + (k - (L.length + 1)) by omega, getD_r]; exact hR _ (getD_mem (by omega))⟩)]
  have c1 : (List.range L.length).countP (fun j => decide (Sees (L ++ p :: R) (L.length + 1 + a) (L.length + 1 + b) j)) = 0 := by
    rw [List.countP_eq_zero]
    intro j hj
    have hj := List.mem_range.1 hj
    simp only [decide_eq_true_eq]
    rintro (⟨_, q⟩ | ⟨q, _⟩)
    · have := q L.length (by omega) (by omega)
      rw [getD_m, getD_l hj] at this
      have := hL _ (getD_mem hj); omega
    · omega
  have c2 : (List.range R.length).countP (fun j => decide (Sees (L ++ p :: R) (L.length + 1 + a) (L.length + 1 + b) (L.length + 1 + j))) = seen R a b := by
    unfold seen
    apply List.countP_congr
    intro j hj
    simp only [decide_eq_true_eq]
    exact sees_right
  rw [c1, c2]; omega

theorem seen_mid (L R : List Nat) (p : Nat) :
    seen (L ++ p :: R) L.length (L.length + 1) = seen L L.length L.length + seen R 0 0 := by
  rw [seen_parts, if_neg (by rintro (⟨h, _⟩ | ⟨h, _⟩) <;> omega)]
  have c1 : (List.range L.length).countP (fun j => decide (Sees (L ++ p :: R) L.length (L.length + 1) j)) = seen L L.length L.length := by
    unfold seen
    apply List.countP_congr
    intro j hj
    have hj := List.mem_range.1 hj
    simp only [decide_eq_true_eq]
    rw [← sees_left (R := R) (p := p) (Nat.le_refl _) (Nat.le_refl _) hj]
    unfold Sees
    constructor
    · rintro (h | ⟨h, _⟩)
      · exact .inl h
      · omega
    · rintro (h | ⟨h, _⟩)
      · exact .inl h
      · omega
  have c2 : (List.range R.length).countP (fun j => decide (Sees (L ++ p :: R) L.length (L.length + 1) (L.length + 1 + j))) = seen R 0 0 := by
    unfold seen
    apply List.countP_congr
    intro j hj
    simp only [decide_eq_true_eq]
    rw [← sees_right (L := L) (p := p) (R := R) (a := 0) (b := 0) (j := j)]
    unfold Sees
    constructor
    · rintro (⟨h, _⟩ | h)
      · omega
      · exact .inr h
    · rintro (⟨h, _⟩ | h)
      · omega
      · exact .inr h
  rw [c1, c2]; omega

theorem sc_eq : ∀ (T : Tr), Strict T → ∀ g ≤ T.size, sc T g = seen (prios T) g g
  | .nil, _, g, hg => by simp [sc, seen, prios]
  | .node a p d l r, h, g, hg => by
    obtain ⟨h1, h2, h3, h4⟩ := h
    have hL := strict_le (strict_prio h3) h1
    have hR := strict_lt (strict_prio h4) h2
    have ll := prios_length l
    have lr := prios_length r
    simp only [size] at hg
    show sc (.node a p d l r) g = seen (prios l ++ p :: prios r) g g
    simp only [sc]
    by_cases e : g ≤ l.size
    · rw [if_pos e, seen_left hL hR (Nat.le_refl _) (by omega), sc_eq l h3 g e]
    · obtain ⟨g', rfl⟩ : ∃ g', g = (prios l).length + 1 + g' := ⟨g - l.size - 1, by omega⟩
      rw [if_neg e, seen_right hL hR (Nat.le_refl _) (by omega), sc_eq r h4 _ (by omega),
        show (prios l).length + 1 + g' - l.size - 1 = g' by omega]

theorem spineR_eq : ∀ (T : Tr), sc T T.size = spineR T
  | .nil => rfl
  | .node a p d l r => by
    show sc (.node a p d l r) (l.size + r.size + 1) = spineR r + 1
    simp only [sc]
    rw [if_neg (by omega), show l.size + r.size + 1 - l.size - 1 = r.size by omega, spineR_eq r]

theorem spineL_eq : ∀ (T : Tr), sc T 0 = spineL T
  | .nil => rfl
  | .node a p d l r => by simp only [sc, spineL]; rw [if_pos (by omega), spineL_eq l]

theorem around_eq : ∀ (T : Tr), Strict T → ∀ i < T.size, around T i = seen (prios T) i (i + 1)
  | .nil, _, i, hi => by simp [size] at hi
  | .node a p d l r, h, i, hi => by
    obtain ⟨h1, h2, h3, h4⟩ := h
    have hL := strict_le (strict_prio h3) h1
    have hR := strict_lt (strict_prio h4) h2
    have ll := prios_length l
    have lr := prios_length r
    simp only [size] at hi
    show around (.node a p d l r) i = seen (prios l ++ p :: prios r) i (i + 1)
    simp only [around]
    by_cases e1 : i = l.size
    · rw [if_pos e1, e1, ← ll, seen_mid, ← spineR_eq, ← spineL_eq, sc_eq l h3 _ (Nat.le_refl _), sc_eq r h4 0 (by omega), ll]
    · rw [if_neg e1]
      by_cases e2 : i < l.size
      · rw [if_pos e2, seen_left hL hR (by omega) (by omega), around_eq l h3 i e2]
      · obtain ⟨i', rfl⟩ : ∃ i', i = (prios l).length + 1 + i' := ⟨i - l.size - 1, by omega⟩
        rw [if_neg e2, show (prios l).length + 1 + i' + 1 = (prios l).length + 1 + (i' + 1) by omega, seen_right hL hR (by omega) (by omega),
          around_eq r h4 _ (by omega), show (prios l).length + 1 + i' - l.size - 1 = i' by omega]

end Ulz.Tlist
