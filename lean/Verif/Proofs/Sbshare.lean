import Verif.Spec.Sbshare
import Verif.Proofs.Sblist
import Mathlib.Tactic.ByContra
/-! Lemmas about threads that share an sblist. -/
namespace Ulz.Sbshare
open Ulz.Sbshare.Spec

theorem upd_self {α : Type} (f : Nat → α) (t : Nat) (v : α) : upd f t v t = v := by simp [upd]

theorem upd_ne {α : Type} (f : Nat → α) {t u : Nat} (v : α) (h : u ≠ t) : upd f t v u = f u := by simp [upd, h]

/-! ### Items in a block -/

/-- Item `i` of the block is `y`. -/
def At (z : Nat) (B : List Byte) (i : Nat) (y : List Byte) : Prop := ∀ k < z, B[i * z + k]? = y[k]?

theorem flatten_at {z : Nat} : ∀ {xs : List (List Byte)}, (∀ x ∈ xs, x.length = z) → ∀ {i k : Nat} (hi : i < xs.length), k < z →
    xs.flatten[i * z + k]? = xs[i][k]?
  | x :: xs, h, 0, k, _, hk => by
    have hx := h x (by simp)
    simp [List.getElem?_append, hx, hk]
  | x :: xs, h, i + 1, k, hi, hk => by
    have hx := h x (by simp)
    have := flatten_at (xs := xs) (fun y hy => h y (by simp [hy])) (i := i) (k := k) (by simpa using hi) hk
    rw [List.flatten_cons, List.getElem?_append_right (by rw [hx, Nat.add_mul]; omega), hx,
      show (i + 1) * z + k - z = i * z + k by rw [Nat.add_mul]; omega, this]
    simp

theorem slot_inj {z i j k l : Nat} (hk : k < z) (hl : l < z) (h : i * z + k = j * z + l) : i = j ∧ k = l := by
  have h1 : (i * z + k) / z = i := by
    rw [Nat.mul_comm, Nat.mul_add_div (by omega), Nat.div_eq_of_lt hk, Nat.add_zero]
  have h2 : (j * z + l) / z = j := by
    rw [Nat.mul_comm, Nat.mul_add_div (by omega), Nat.div_eq_of_lt hl, Nat.add_zero]
  have : i = j := by rw [← h1, ← h2, h]
  subst this
  exact ⟨rfl, by omega⟩

theorem slot_lt {z i k c : Nat} (hk : k < z) (hi : i < c) : i * z + k < c * z := by
  have := Nat.mul_le_mul_right z (show i + 1 ≤ c by omega)
  rw [Nat.add_mul] at this
  omega

theorem At.set_ne {z : Nat} {B : List Byte} {i : Nat} {y : List Byte} (h : At z B i y) {j l : Nat} (hl : l < z) (hj : j ≠ i) (v : Byte) :
    At z (B.set (j * z + l) v) i y := by
  intro k hk
  rw [List.getElem?_set_ne (fun e => hj (slot_inj hl hk e).1)]
  exact h k hk

/-- In the block `q` of `c` items, the items `ys` are there, of those in `A`, except `ex`. -/
def Slots (m : Mem) (q c : Nat) (A : Nat → Prop) (ys : List (List Byte)) (ex : Option Nat) : Prop :=
  ∃ B, m.heap q = some B ∧ B.length = c * m.isz ∧ ∀ i (h : i < ys.length), A i → ex ≠ some i → At m.isz B i ys[i]

theorem slots_of_holds {m : Mem} {xs : List (List Byte)} (h : Holds m xs) : Slots m m.items m.capa (fun _ => True) xs none := by
  have hl := h.live
  obtain ⟨B, hB⟩ := Option.isSome_iff_exists.1 hl
  have hv : (view m).items = B := by simp [view, hB]
  have hlen := h.rep.items_length
  obtain ⟨slack, b1, b2⟩ := h.rep.buf
  refine ⟨B, hB, by rw [← hv]; exact hlen, fun i hi _ _ k hk => ?_⟩
  have hit : ∀ x ∈ xs, x.length = m.isz := h.rep.item
  rw [← hv, b1, List.getElem?_append_left, flatten_at hit hi hk]
  rw [Ulz.flatten_length hit]
  exact slot_lt hk hi

theorem item_of_slots {m : Mem} {A : Nat → Prop} {ys : List (List Byte)} (h : Slots m m.items m.capa A ys none)
    (hy : ∀ y ∈ ys, y.length = m.isz) (hb : ys.length * m.isz < 2^64) (hcap : ys.length ≤ m.capa)
    {i : Nat} (hc : i < m.count ↔ i < ys.length) (hA : A i) :
    Sblist.content (view m) (Sblist.get (view m) i) = .ok ys[i]? := by
  obtain ⟨B, hB, hl, hs⟩ := h
  unfold Sblist.get
  by_cases hi : i < ys.length
  · rw [if_pos (show i < (view m).count from hc.2 hi)]
    have hlt : i * m.isz < 2^64 := Sblist.mul_lt_of hb (by omega)
    have hle : (i + 1) * m.isz ≤ m.capa * m.isz := Nat.mul_le_mul_right _ (by omega)
    rw [Nat.add_mul] at hle
    have e : (B.drop (i * m.isz)).take m.isz = ys[i] := by
      apply List.ext_getElem?
      intro k
      by_cases hk : k < m.isz
      · rw [List.getElem?_take_of_lt hk, List.getElem?_drop]
        exact hs i hi hA (by simp) k hk
      · rw [List.getElem?_eq_none (by simp; omega), List.getElem?_eq_none (by rw [hy _ (List.getElem_mem _)]; omega)]
    have := rdN_mid (A := B.take (i * m.isz)) (M := ys[i]) (B := B.drop (i * m.isz + m.isz)) (i := i * m.isz) (n := m.isz)
      (by simp; omega) (hy _ (List.getElem_mem _)).symm
    rw [← e, List.append_assoc, ← List.drop_drop, List.take_append_drop, List.take_append_drop, e] at this
    simp only [Sblist.content, view, hB, Option.getD_some, szt_of_lt hlt, this, List.getElem?_eq_getElem hi]
    rfl
  · rw [if_neg (show ¬i < (view m).count from fun h => hi (hc.1 h)), List.getElem?_eq_none (by omega)]
    rfl

theorem holds_of_slots {m : Mem} {ys : List (List Byte)} (h : Slots m m.items m.capa (fun _ => True) ys none)
    (hz : 0 < m.isz) (hy : ∀ y ∈ ys, y.length = m.isz) (hc : m.count = ys.length) (hcap : m.count ≤ m.capa)
    (hn : m.heap 0 = some []) (hf : ∀ p, m.next ≤ p → m.heap p = none) : Holds m ys := by
  obtain ⟨B, hB, hl, hs⟩ := h
  refine ⟨⟨hz, hc, hy, hcap, B.drop (ys.length * m.isz), ?_, ?_⟩, by simp [hB], hn, hf⟩
  · have : B.take (ys.length * m.isz) = ys.flatten := by
      have hfl : ys.flatten.length = ys.length * m.isz := Ulz.flatten_length hy
      have hle : ys.length * m.isz ≤ B.length := by rw [hl]; exact Nat.mul_le_mul_right _ (by omega)
      apply List.ext_getElem?
      intro j
      by_cases hj : j < ys.length * m.isz
      · have hd : j / m.isz < ys.length := Nat.div_lt_of_lt_mul (by rw [Nat.mul_comm]; exact hj)
        have hm : j % m.isz < m.isz := Nat.mod_lt _ hz
        have e : j = j / m.isz * m.isz + j % m.isz := by rw [Nat.mul_comm]; exact (Nat.div_add_mod j m.isz).symm
        rw [List.getElem?_take_of_lt hj, e, hs _ hd trivial (by simp) _ hm, flatten_at hy hd hm]
      · rw [List.getElem?_eq_none (by simp; omega), List.getElem?_eq_none (by omega)]
    simp only [view, hB, Option.getD_some]
    rw [← this, List.take_append_drop]
  · simp only [view, List.length_drop, hl, hc, Nat.sub_mul]

/-! ### One call, step by step -/

/-- The item a call changes or looks at. -/
def tgt (ys : List (List Byte)) : Op → Nat
  | .add _ _ => ys.length
  | .set _ p => p
  | .look i => i

/-- The indices in `A`, and if the thread adds items all of them, end where `ys` ends. -/
def Cnt (m : Mem) (A : Nat → Prop) (ad : Prop) (ys : List (List Byte)) : Prop :=
  (∀ i, A i → (i < m.count ↔ i < ys.length)) ∧ (ad → m.count = ys.length)

/-- The counter in the middle of a call that writes: one more than items if it adds one. -/
def Mid (m : Mem) (A : Nat → Prop) (ad : Prop) (ys : List (List Byte)) : Op → Prop
  | .add _ _ => m.count = ys.length + 1
  | .set _ p => Cnt m A ad ys ∧ p < ys.length
  | .look _ => False

/-- What is so at the places of a call, on a list `ys`. -/
def Loc (m : Mem) (A : Nat → Prop) (ad : Prop) (ys : List (List Byte)) (o : Op) : Pc → Prop
  | .idle => Cnt m A ad ys ∧ ys.length ≤ m.capa ∧ Slots m m.items m.capa A ys none
  | .gcap c => IsAdd o ∧ c = ys.length ∧ m.count = ys.length ∧ ys.length ≤ m.capa ∧ Slots m m.items m.capa A ys none
  | .gptr => IsAdd o ∧ m.count = ys.length ∧ ys.length = m.capa ∧ Slots m m.items m.capa A ys none
  | .gcap2 p => p = m.items ∧ IsAdd o ∧ m.count = ys.length ∧ ys.length = m.capa ∧ Slots m m.items m.capa A ys none
  | .gcall p k => p = m.items ∧ k = m.capa ∧ IsAdd o ∧ m.count = ys.length ∧ ys.length = m.capa ∧ Slots m m.items m.capa A ys none
  | .capl q => IsAdd o ∧ m.count = ys.length ∧ ys.length = m.capa ∧ Slots m q (m.capa + m.bi) A ys none
  | .caps q v => v = m.capa ∧ IsAdd o ∧ m.count = ys.length ∧ ys.length = m.capa ∧ Slots m q (m.capa + m.bi) A ys none
  | .setit q => IsAdd o ∧ m.count = ys.length ∧ ys.length < m.capa ∧ Slots m q m.capa A ys none
  | .inc => IsAdd o ∧ m.count = ys.length ∧ ys.length < m.capa ∧ Slots m m.items m.capa A ys none
  | .incs v => v = ys.length ∧ IsAdd o ∧ m.count = ys.length ∧ ys.length < m.capa ∧ Slots m m.items m.capa A ys none
  | .pos => IsAdd o ∧ m.count = ys.length + 1 ∧ ys.length < m.capa ∧ Slots m m.items m.capa A ys none
  | .chk p => p = ys.length ∧ IsAdd o ∧ m.count = ys.length + 1 ∧ ys.length < m.capa ∧ Slots m m.items m.capa A ys none
  | .addr p => p = tgt ys o ∧ Mid m A ad ys o ∧ ys.length ≤ m.capa ∧ p < m.capa ∧ Slots m m.items m.capa A ys none
  | .cpy q off k => q = m.items ∧ off = tgt ys o * m.isz ∧ k ≤ m.isz ∧ Mid m A ad ys o ∧ ys.length ≤ m.capa ∧ tgt ys o < m.capa ∧
      Slots m m.items m.capa A ys (some (tgt ys o)) ∧
      ∀ B, m.heap m.items = some B → ∀ j < k, B[tgt ys o * m.isz + j]? = (given o)[j]?
  | .laddr i => o = .look i ∧ i < ys.length ∧ Cnt m A ad ys ∧ ys.length ≤ m.capa ∧ Slots m m.items m.capa A ys none
  | .lrd q off acc => ∃ i y, o = .look i ∧ ys[i]? = some y ∧ q = m.items ∧ off = i * m.isz ∧ acc = y.take acc.length ∧
      acc.length ≤ m.isz ∧ Cnt m A ad ys ∧ ys.length ≤ m.capa ∧ Slots m m.items m.capa A ys none

/-- Facts that every step keeps. -/
structure Base (m : Mem) : Prop where
  isz : 0 < m.isz
  null : m.heap 0 = some []
  fresh : ∀ p, m.next ≤ p → m.heap p = none

theorem Slots.le_of {m : Mem} {q c : Nat} {A : Nat → Prop} {ys : List (List Byte)} (h : Slots m q c A ys none) (e : Option Nat) :
    Slots m q c A ys e := by
  obtain ⟨B, h1, h2, h3⟩ := h
  exact ⟨B, h1, h2, fun i hi hA _ => h3 i hi hA (by simp)⟩

/-- What a step gives. -/
def Next (A : Nat → Prop) (ad : Prop) (ys : List (List Byte)) (o : Op) (m : Mem) : C (Mem × (Pc ⊕ Res)) → Prop
  | .error _ => False
  | .ok (m', .inl pc) => Base m' ∧ m'.isz = m.isz ∧ m'.bi = m.bi ∧ pc ≠ .idle ∧ Loc m' A ad ys o pc
  | .ok (m', .inr r) => Base m' ∧ m'.isz = m.isz ∧ m'.bi = m.bi ∧ ∃ zs, Step ys o zs r ∧ Loc m' A ad zs o .idle ∧
      (r ≠ .int 1 → zs = ys)

theorem regrow_ok {m : Mem} {A : Nat → Prop} {ys : List (List Byte)} (hB : Base m) (h : Slots m m.items m.capa A ys none) (g : Grow)
    {n : Nat} (hn : n = (m.capa + m.bi) * m.isz) (hl : ys.length ≤ m.capa) :
    (g = none ∧ regrow m g m.items n = .ok (m, none)) ∨
    ∃ m' q, regrow m g m.items n = .ok (m', some q) ∧ Base m' ∧ m'.isz = m.isz ∧ m'.bi = m.bi ∧ m'.count = m.count ∧ m'.capa = m.capa ∧
      Slots m' q (m.capa + m.bi) A ys none := by
  obtain ⟨B, h1, h2, h3⟩ := h
  have hpos : 0 < m.next := by
    by_contra hc
    have := hB.fresh 0 (by omega)
    rw [hB.null] at this; cases this
  have hlt : m.items < m.next := by
    by_contra hc
    have := hB.fresh m.items (by omega)
    rw [h1] at this; cases this
  unfold regrow block
  rw [h1]
  cases g with
  | none => left; exact ⟨rfl, rfl⟩
  | some v =>
    right
    obtain ⟨stay, f⟩ := v
    have hle : B.length ≤ n := by rw [h2, hn]; exact Nat.mul_le_mul_right _ (by omega)
    simp only [pure_eq_ok, ok_bindE]
    have hs : ∀ m' : Mem, ∀ q, m'.isz = m.isz → m'.heap q = some (B.take n ++ (List.range (n - B.length)).map f) →
        Slots m' q (m.capa + m.bi) A ys none := by
      intro m' q e1 e2
      refine ⟨_, e2, ?_, fun i hi hA _ => ?_⟩
      · rw [e1, ← hn]; simp; omega
      · rw [e1]
        intro k hk
        rw [List.take_of_length_le hle, List.getElem?_append_left (by rw [h2]; exact slot_lt hk (by omega))]
        exact h3 i hi hA (by simp) k hk
    by_cases hp : stay = true ∧ m.items ≠ 0
    · rw [if_pos hp]
      refine ⟨_, _, rfl, ⟨hB.isz, ?_, fun p hp' => ?_⟩, rfl, rfl, rfl, rfl, hs _ _ rfl (upd_self _ _ _)⟩
      · show upd _ _ _ _ = _
        rw [upd_ne _ _ (fun e => hp.2 e.symm)]; exact hB.null
      · show upd _ _ _ _ = _
        rw [upd_ne _ _ (by show p ≠ m.items; have : m.next ≤ p := hp'; omega)]; exact hB.fresh p hp'
    · rw [if_neg hp]
      by_cases h0 : m.items = 0
      · rw [if_pos h0]
        refine ⟨_, _, rfl, ⟨hB.isz, ?_, fun p hp' => ?_⟩, rfl, rfl, rfl, rfl, hs _ _ rfl (upd_self _ _ _)⟩
        · show upd _ _ _ _ = _
          rw [upd_ne _ _ (by omega)]; exact hB.null
        · show upd _ _ _ _ = _
          have : m.next + 1 ≤ p := hp'
          rw [upd_ne _ _ (by omega)]; exact hB.fresh p (by omega)
      · rw [if_neg h0]
        refine ⟨_, _, rfl, ⟨hB.isz, ?_, fun p hp' => ?_⟩, rfl, rfl, rfl, rfl, hs _ _ rfl (upd_self _ _ _)⟩
        · show upd _ _ _ _ = _
          rw [upd_ne _ _ (by omega), upd_ne _ _ (fun e => h0 e.symm)]; exact hB.null
        · show upd _ _ _ _ = _
          have : m.next + 1 ≤ p := hp'
          rw [upd_ne _ _ (by omega), upd_ne _ _ (by omega)]; exact hB.fresh p (by omega)

theorem micro_loc {m : Mem} {A : Nat → Prop} {ad : Prop} {ys : List (List Byte)} {o : Op} (hB : Base m)
    (hy : ∀ y ∈ ys, y.length = m.isz) (ho : OpOk m.isz o) (had : IsAdd o → ad) (hu : ∀ i, o = .look i ∨ (∃ x, o = .set x i) → A i)
    (hb : ys.length * m.isz < 2^64) (ha : IsAdd o → (ys.length + 1) * m.isz < 2^64)
    (hg : IsAdd o → ys.length = m.capa → 0 < m.bi ∧ (ys.length + m.bi) * m.isz < 2^64) :
    ∀ {pc : Pc}, Loc m A ad ys o pc → Next A ad ys o m (micro o m pc) := by
  have hadd : IsAdd o → ∃ x g, o = .add x g := by
    intro h; cases o with
    | add x g => exact ⟨x, g, rfl⟩
    | set => cases h
    | look => cases h
  have hle1 : ∀ k, k * m.isz < 2^64 → k < 2^64 := fun k hk => Nat.lt_of_le_of_lt (Nat.le_mul_of_pos_right _ hB.isz) hk
  intro pc h
  cases pc with
  | idle =>
    obtain ⟨h1, h2, h3⟩ := h
    cases o with
    | add x g => exact ⟨hB, rfl, rfl, by simp, trivial, h1.2 (had trivial), h1.2 (had trivial), h2, h3⟩
    | set x p =>
      have hp := h1.1 p (hu p (Or.inr ⟨x, rfl⟩))
      simp only [micro]
      by_cases hc : p ≥ m.count
      · rw [if_pos hc]
        exact ⟨hB, rfl, rfl, ys, .setOut (by omega), ⟨h1, h2, h3⟩, fun _ => rfl⟩
      · rw [if_neg hc]
        exact ⟨hB, rfl, rfl, by simp, rfl, ⟨h1, by omega⟩, h2, by omega, h3⟩
    | look i =>
      have hp := h1.1 i (hu i (Or.inl rfl))
      simp only [micro]
      by_cases hc : i < m.count
      · rw [if_pos hc]
        exact ⟨hB, rfl, rfl, by simp, rfl, by omega, h1, h2, h3⟩
      · rw [if_neg hc]
        refine ⟨hB, rfl, rfl, ys, ?_, ⟨h1, h2, h3⟩, fun _ => rfl⟩
        have := Step.look (xs := ys) (i := i)
        rwa [List.getElem?_eq_none (by omega)] at this
  | gcap c =>
    obtain ⟨h0, rfl, h1, h2, h3⟩ := h
    simp only [micro]
    split
    · rename_i hc
      exact ⟨hB, rfl, rfl, by simp, h0, h1, hc, h3⟩
    · exact ⟨hB, rfl, rfl, by simp, h0, h1, by omega, h3⟩
  | gptr =>
    obtain ⟨h0, h1, h2, h3⟩ := h
    exact ⟨hB, rfl, rfl, by simp, rfl, h0, h1, h2, h3⟩
  | gcap2 p =>
    obtain ⟨rfl, h0, h1, h2, h3⟩ := h
    exact ⟨hB, rfl, rfl, by simp, rfl, rfl, h0, h1, h2, h3⟩
  | gcall p k =>
    obtain ⟨rfl, rfl, h0, h1, h2, h3⟩ := h
    obtain ⟨g1, g2⟩ := hg h0 h2
    simp only [micro]
    rcases regrow_ok hB h3 (growOf o) (n := szt ((m.capa + m.bi) * m.isz)) (by rw [szt_of_lt (by rw [← h2]; exact g2)]) (by omega)
      with ⟨e1, e2⟩ | ⟨m', q, e1, e2, e3, e4, e5, e6, e7⟩
    · rw [e2]
      refine ⟨hB, rfl, rfl, ys, ?_, ⟨⟨fun i _ => by dsimp only; omega, fun _ => h1⟩, by dsimp only; omega, h3⟩, fun _ => rfl⟩
      obtain ⟨x, g, rfl⟩ := hadd h0
      simp only [growOf] at e1
      subst e1
      exact .addFail
    · rw [e1]
      refine ⟨e2, e3, e4, by simp, h0, by dsimp only; omega, by dsimp only; omega, ?_⟩
      dsimp only
      rw [e6, e4]; exact e7
  | capl q =>
    obtain ⟨h0, h1, h2, h3⟩ := h
    exact ⟨hB, rfl, rfl, by simp, rfl, h0, h1, h2, h3⟩
  | caps q v =>
    obtain ⟨rfl, h0, h1, h2, h3⟩ := h
    obtain ⟨g1, g2⟩ := hg h0 h2
    have e : szt (m.capa + m.bi) = m.capa + m.bi := szt_of_lt (by rw [← h2]; exact hle1 _ g2)
    simp only [micro, e]
    refine ⟨⟨hB.isz, hB.null, hB.fresh⟩, rfl, rfl, by simp, h0, h1, ?_, h3⟩
    show ys.length < m.capa + m.bi
    omega
  | setit q =>
    obtain ⟨h0, h1, h2, h3⟩ := h
    exact ⟨⟨hB.isz, hB.null, hB.fresh⟩, rfl, rfl, by simp, h0, h1, h2, h3⟩
  | inc =>
    obtain ⟨h0, h1, h2, h3⟩ := h
    exact ⟨hB, rfl, rfl, by simp, h1, h0, h1, h2, h3⟩
  | incs v =>
    obtain ⟨rfl, h0, h1, h2, h3⟩ := h
    have e : szt (ys.length + 1) = ys.length + 1 := szt_of_lt (hle1 _ (ha h0))
    simp only [micro, e]
    exact ⟨⟨hB.isz, hB.null, hB.fresh⟩, rfl, rfl, by simp, h0, rfl, h2, h3⟩
  | pos =>
    obtain ⟨h0, h1, h2, h3⟩ := h
    have e : sztSub m.count 1 = ys.length := by
      rw [sztSub_of_le (by omega) (by rw [h1]; exact hle1 _ (ha h0)), h1]; omega
    simp only [micro, e]
    exact ⟨hB, rfl, rfl, by simp, rfl, h0, h1, h2, h3⟩
  | chk p =>
    obtain ⟨rfl, h0, h1, h2, h3⟩ := h
    simp only [micro]
    rw [if_neg (by omega)]
    obtain ⟨x, g, rfl⟩ := hadd h0
    exact ⟨hB, rfl, rfl, by simp, rfl, h1, by omega, h2, h3⟩
  | addr p =>
    obtain ⟨rfl, h1, h2, h3, h4⟩ := h
    have e : szt (tgt ys o * m.isz) = tgt ys o * m.isz := by
      apply szt_of_lt
      cases o with
      | add x g => exact Sblist.mul_lt_of (ha trivial) (by simp [tgt])
      | set x p => exact Sblist.mul_lt_of hb (by have := h1.2; simp [tgt]; omega)
      | look i => cases h1
    simp only [micro, e]
    exact ⟨hB, rfl, rfl, by simp, rfl, rfl, by omega, h1, h2, h3, h4.le_of _, fun B _ j hj => by omega⟩
  | cpy q off k =>
    obtain ⟨rfl, rfl, h1, h2, h3, h4, ⟨B, b1, b2, b3⟩, h6⟩ := h
    simp only [micro]
    have hgl : (given o).length = m.isz := by
      cases o with
      | add x g => exact ho
      | set x p => exact ho
      | look i => cases h2
    by_cases hk : k < m.isz
    · rw [if_pos hk]
      have hlt := slot_lt hk h4
      unfold block
      rw [b1]
      simp only [pure_eq_ok, ok_bindE, rd_ok (show k < (given o).length by omega), wr_ok (show tgt ys o * m.isz + k < B.length by omega)]
      have hne : m.items ≠ 0 := by
        intro e
        rw [e, hB.null] at b1
        cases b1
        simp at b2; omega
      have hlt' : m.items < m.next := by
        by_contra hc
        have := hB.fresh m.items (by omega)
        rw [b1] at this; cases this
      refine ⟨⟨hB.isz, ?_, fun p hp' => ?_⟩, rfl, rfl, by simp, rfl, rfl, hk, ?_, h3, h4, ⟨_, upd_self _ _ _, by simp [b2], ?_⟩, ?_⟩
      · show upd _ _ _ _ = _
        rw [upd_ne _ _ (fun e => hne e.symm)]; exact hB.null
      · show upd _ _ _ _ = _
        rw [upd_ne _ _ (by have : m.next ≤ p := hp'; omega)]; exact hB.fresh p hp'
      · cases o <;> exact h2
      · intro i hi hA hx
        exact (b3 i hi hA hx).set_ne hk (fun e => hx (by rw [e])) _
      · intro B' hB' j hj
        have hB2 : upd m.heap m.items (some (B.set (tgt ys o * m.isz + k) (given o)[k])) m.items = some B' := hB'
        rw [upd_self] at hB2
        cases hB2
        show (B.set (tgt ys o * m.isz + k) (given o)[k])[tgt ys o * m.isz + j]? = _
        by_cases e : j = k
        · subst e
          rw [List.getElem?_set_self (by omega), List.getElem?_eq_getElem (by omega)]
        · rw [List.getElem?_set_ne (by omega)]
          exact h6 B b1 j (by omega)
    · rw [if_neg hk]
      have hke : k = m.isz := by omega
      have hat : At m.isz B (tgt ys o) (given o) := fun j hj => h6 B b1 j (by omega)
      cases o with
      | add x g =>
        have hc : m.count = ys.length + 1 := h2
        have h5 : ys.length < m.capa := h4
        refine ⟨hB, rfl, rfl, ys ++ [x], .add, ⟨⟨fun i _ => by simp [hc], fun _ => by simp [hc]⟩, by simp; omega, B, b1, b2, ?_⟩,
          fun h => absurd rfl h⟩
        intro i hi hA _
        by_cases hl : i < ys.length
        · rw [List.getElem_append_left hl]
          exact b3 i hl hA (by simp [tgt]; omega)
        · simp only [List.length_append, List.length_singleton] at hi
          have : i = ys.length := by omega
          subst this
          simpa using (show At m.isz B ys.length x from hat)
      | set x p =>
        obtain ⟨hc, hp⟩ : Cnt m A ad ys ∧ p < ys.length := h2
        refine ⟨hB, rfl, rfl, ys.set p x, .set hp, ⟨⟨fun i hA => by rw [List.length_set]; exact hc.1 i hA, fun h => by rw [List.length_set]; exact hc.2 h⟩,
          by simpa using h3, B, b1, b2, ?_⟩, fun h => absurd rfl h⟩
        intro i hi hA _
        rw [List.length_set] at hi
        by_cases hl : p = i
        · subst hl
          rw [List.getElem_set_self]; exact hat
        · rw [List.getElem_set_ne hl]
          exact b3 i hi hA (by simp [tgt]; omega)
      | look i => cases h2
  | laddr i =>
    obtain ⟨rfl, h1, h2, h3, h4⟩ := h
    have e : szt (i * m.isz) = i * m.isz := szt_of_lt (Sblist.mul_lt_of hb (by omega))
    simp only [micro, e]
    exact ⟨hB, rfl, rfl, by simp, i, ys[i], rfl, List.getElem?_eq_getElem h1, rfl, rfl, by simp, by simp, h2, h3, h4⟩
  | lrd q off acc =>
    obtain ⟨i, y, rfl, h1, rfl, rfl, h2, h3, h4, h5, ⟨B, b1, b2, b3⟩⟩ := h
    obtain ⟨hi, he⟩ := List.getElem?_eq_some_iff.1 h1
    have hyl : y.length = m.isz := by rw [← he]; exact hy _ (List.getElem_mem _)
    simp only [micro]
    by_cases hk : acc.length < m.isz
    · rw [if_pos hk]
      have hlt := slot_lt hk (show i < m.capa by omega)
      unfold block
      rw [b1]
      simp only [pure_eq_ok, ok_bindE, rd_ok (show i * m.isz + acc.length < B.length by omega)]
      refine ⟨hB, rfl, rfl, by simp, i, y, rfl, h1, rfl, rfl, ?_, by simp; omega, h4, h5, ⟨B, b1, b2, b3⟩⟩
      have h7 := b3 i hi (hu i (Or.inl rfl)) (by simp) acc.length hk
      rw [List.getElem?_eq_getElem (by omega), he, List.getElem?_eq_getElem (by omega)] at h7
      have h8 := Option.some.inj h7
      rw [h8, List.length_append, List.length_singleton, List.take_add_one, List.getElem?_eq_getElem (by omega), ← h2]
      rfl
    · rw [if_neg hk]
      have : acc = y := by rw [h2, List.take_of_length_le (by omega)]
      subst this
      refine ⟨hB, rfl, rfl, ys, ?_, ⟨h4, h5, B, b1, b2, b3⟩, fun _ => rfl⟩
      have := Step.look (xs := ys) (i := i)
      rwa [h1] at this

/-! ### Steps of a thread -/

theorem step_inl {s : St} {t : Nat} {o : Op} {os : List Op} {m : Mem} {pc : Pc} (hc : (s.th t).calls = o :: os)
    (h : micro o s.mem (s.th t).pc = .ok (m, .inl pc)) :
    step s t = .ok ⟨m, upd s.th t ⟨o :: os, pc, (s.th t).out⟩⟩ := by
  unfold step
  simp only [hc]
  rw [h]
  rfl

theorem step_inr {s : St} {t : Nat} {o : Op} {os : List Op} {m : Mem} {r : Res} (hc : (s.th t).calls = o :: os)
    (h : micro o s.mem (s.th t).pc = .ok (m, .inr r)) :
    step s t = .ok ⟨m, upd s.th t ⟨os, .idle, (s.th t).out ++ [r]⟩⟩ := by
  unfold step
  simp only [hc]
  rw [h]
  rfl

theorem step_nil {s : St} {t : Nat} (hc : (s.th t).calls = []) : step s t = .ok s := by
  unfold step
  simp only [hc]
  rfl

theorem step_err {s : St} {t : Nat} {o : Op} {os : List Op} {e : UB} (hc : (s.th t).calls = o :: os)
    (h : micro o s.mem (s.th t).pc = .error e) : step s t = .error e := by
  unfold step
  simp only [hc]
  rw [h]
  rfl

theorem run_append : ∀ (a b : List Nat) (s : St), run s (a ++ b) = (run s a >>= fun s' => run s' b)
  | [], b, s => rfl
  | t :: a, b, s => by
    simp only [List.cons_append, run]
    cases step s t with
    | error e => rfl
    | ok s' => exact run_append a b s'

theorem Spec.Step.len {ys zs : List (List Byte)} {o : Op} {r : Res} (h : Step ys o zs r) :
    ys.length ≤ zs.length ∧ zs.length ≤ ys.length + adds [o] ∧ (¬IsAdd o → zs.length = ys.length) := by
  cases h <;> simp [adds, IsAdd]

theorem Spec.Step.sized {z : Nat} {ys zs : List (List Byte)} {o : Op} {r : Res} (h : Step ys o zs r) (ho : OpOk z o)
    (hy : ∀ y ∈ ys, y.length = z) : ∀ y ∈ zs, y.length = z := by
  cases h with
  | add =>
    intro y hm
    rcases List.mem_append.1 hm with hm | hm
    · exact hy y hm
    · simp at hm; subst hm; exact ho
  | addFail => exact hy
  | set =>
    intro y hm
    rcases List.mem_or_eq_of_mem_set hm with hm | hm
    · exact hy y hm
    · subst hm; exact ho
  | setOut => exact hy
  | look => exact hy

/-! ### Calls that do not overlap -/

/-- The invariant: `B` bounds the number of items. -/
def SInv (xs : List (List Byte)) (prog : Nat → List Op) (z bi B : Nat) (s : St) : Prop :=
  ∃ (hist : List Entry) (ys : List (List Byte)), Steps xs (hist.map fun e => e.2.1) ys (hist.map fun e => e.2.2) ∧
    (∀ t, prog t = ((hist.filter fun e => e.1 = t).map fun e => e.2.1) ++ (s.th t).calls ∧
      (s.th t).out = (hist.filter fun e => e.1 = t).map fun e => e.2.2) ∧
    Base s.mem ∧ s.mem.isz = z ∧ s.mem.bi = bi ∧ (∀ y ∈ ys, y.length = z) ∧ ys.length ≤ B ∧
    ∃ t0, (∀ u, u ≠ t0 → (s.th u).pc = .idle) ∧ (∀ u, (s.th u).calls = [] → (s.th u).pc = .idle) ∧
      Loc s.mem (fun _ => True) True ys ((s.th t0).calls.headD (.look 0)) (s.th t0).pc

theorem SInv.serial {xs : List (List Byte)} {prog : Nat → List Op} {z bi B : Nat} {s : St} (h : SInv xs prog z bi B s) : Serial xs prog s := by
  obtain ⟨hist, ys, h1, h2, h3, h4, h5, h6, h7, t0, h8, h9, h10⟩ := h
  refine ⟨hist, ys, h1, h2, fun hi => ?_⟩
  rw [hi t0] at h10
  obtain ⟨c1, c2, c3⟩ := h10
  have hc := c1.2 trivial
  exact holds_of_slots c3 h3.isz (by rw [h4]; exact h6) hc (by omega) h3.null h3.fresh

theorem sinv_step {xs : List (List Byte)} {prog : Nat → List Op} {z bi B : Nat} (hz : 0 < z) (hbi : 0 < bi) (hB : (B + bi) * z < 2^64)
    (hok : ∀ t, ∀ o ∈ prog t, OpOk z o) {s : St} (h : SInv xs prog z bi B s) (t : Nat) (hn : ∀ u, u ≠ t → (s.th u).pc = .idle) :
    ∃ s', step s t = .ok s' ∧ SInv xs prog z bi (B + 1) s' := by
  obtain ⟨hist, ys, h1, h2, h3, h4, h5, h6, h7, t0, h8, h9, h10⟩ := h
  have h10 : Loc s.mem (fun _ => True) True ys ((s.th t).calls.headD (.look 0)) (s.th t).pc := by
    by_cases e : t0 = t
    · rw [← e]; exact h10
    · rw [hn t0 e] at h10
      rw [h8 t (fun h => e h.symm)]
      exact h10
  cases hc : (s.th t).calls with
  | nil =>
    exact ⟨s, step_nil hc, hist, ys, h1, h2, h3, h4, h5, h6, by omega, t, hn, h9, h10⟩
  | cons o os =>
    rw [hc] at h10
    simp only [List.headD_cons] at h10
    have hmem : o ∈ prog t := by rw [(h2 t).1, hc]; simp
    have hle : (ys.length + bi) * z < 2^64 := Sblist.mul_lt_of hB (by omega)
    have := micro_loc h3 (by rw [h4]; exact h6) (by rw [h4]; exact hok t o hmem) (fun _ => trivial) (fun _ _ => trivial)
      (by rw [h4]; exact Sblist.mul_lt_of hle (by omega)) (fun _ => by rw [h4]; exact Sblist.mul_lt_of hle (by omega))
      (fun _ _ => by rw [h4, h5]; exact ⟨hbi, hle⟩) h10
    cases hm : micro o s.mem (s.th t).pc with
    | error e => rw [hm] at this; cases this
    | ok v =>
      rw [hm] at this
      obtain ⟨m', pc | r⟩ := v
      · obtain ⟨n1, n2, n3, n4, n5⟩ := this
        refine ⟨_, step_inl hc hm, hist, ys, h1, fun u => ?_, n1, by rw [n2, h4], by rw [n3, h5], h6, by omega, t, fun u hu => ?_, fun u hu => ?_, ?_⟩
        · by_cases e : u = t
          · subst e; simp only [upd_self]; rw [← hc]; exact h2 u
          · simp only [upd_ne _ _ e]; exact h2 u
        · simp only [upd_ne _ _ hu]; exact hn u hu
        · by_cases e : u = t
          · subst e; simp only [upd_self] at hu; cases hu
          · simp only [upd_ne _ _ e] at hu ⊢; exact h9 u hu
        · simp only [upd_self, List.headD_cons]; exact n5
      · obtain ⟨n1, n2, n3, zs, n4, n5, n6⟩ := this
        have hl := n4.len
        have ha : adds [o] ≤ 1 := by cases o <;> simp [adds]
        refine ⟨_, step_inr hc hm, hist ++ [(t, o, r)], zs, ?_, fun u => ?_, n1, by rw [n2, h4], by rw [n3, h5],
          n4.sized (hok t o hmem) h6, by omega, t, fun u hu => ?_, fun u hu => ?_, ?_⟩
        · rw [List.map_append, List.map_append]; exact .snoc h1 n4
        · by_cases e : u = t
          · subst e; simp only [upd_self]
            have := h2 u
            rw [hc] at this
            simp [this]
          · simp only [upd_ne _ _ e]
            have := h2 u
            rw [List.filter_append, List.filter_cons_of_neg (by simpa using fun h : t = u => e h.symm), List.filter_nil, List.append_nil]
            exact this
        · simp only [upd_ne _ _ hu]; exact hn u hu
        · by_cases e : u = t
          · subst e; simp only [upd_self]
          · simp only [upd_ne _ _ e] at hu ⊢; exact h9 u hu
        · simp only [upd_self]; exact n5

theorem sinv_run {xs : List (List Byte)} {prog : Nat → List Op} {z bi : Nat} (hz : 0 < z) (hbi : 0 < bi)
    (hok : ∀ t, ∀ o ∈ prog t, OpOk z o) : ∀ {sched : List Nat} {B : Nat} {s : St}, (B + sched.length + bi) * z < 2^64 →
    SInv xs prog z bi B s → NoOverlap s sched → ∃ s', run s sched = .ok s' ∧ Serial xs prog s'
  | [], B, s, hb, h, hn => ⟨s, rfl, h.serial⟩
  | t :: ts, B, s, hb, h, hn => by
    obtain ⟨s1, e1, i1⟩ := sinv_step hz hbi (Sblist.mul_lt_of hb (by omega)) hok h t hn.1
    obtain ⟨s2, e2, i2⟩ := sinv_run hz hbi hok (sched := ts) (B := B + 1) (by
      refine Sblist.mul_lt_of hb ?_
      simp only [List.length_cons]; omega) i1 (hn.2 s1 e1)
    exact ⟨s2, by simp only [run, e1]; exact e2, i2⟩

theorem Spec.Holds.base {m : Mem} {xs : List (List Byte)} (h : Holds m xs) : Base m := ⟨h.rep.isz, h.null, h.fresh⟩

theorem Spec.Holds.loc {m : Mem} {xs : List (List Byte)} (h : Holds m xs) (o : Op) : Loc m (fun _ => True) True xs o .idle := by
  have hc : m.count = xs.length := h.rep.count
  have hp : m.count ≤ m.capa := h.rep.capa
  exact ⟨⟨fun i _ => by rw [hc], fun _ => hc⟩, by omega, slots_of_holds h⟩

/-! ### Threads that are apart -/

/-- Not growing the block. -/
def NoGrow : Pc → Prop
  | .gptr => False
  | .gcap2 _ => False
  | .gcall _ _ => False
  | .capl _ => False
  | .caps _ _ => False
  | .setit _ => False
  | _ => True

/-- What a step of a call that does not grow the block may change: one byte of item `j`, and `count` if it adds. -/
structure Small (m m' : Mem) (o : Op) (j : Nat) : Prop where
  isz : m'.isz = m.isz
  capa : m'.capa = m.capa
  items : m'.items = m.items
  count : ¬IsAdd o → m'.count = m.count
  heap : m'.heap m.items = m.heap m.items ∨ ((∀ i, o ≠ .look i) ∧ ∃ B k v, k < m.isz ∧ m.heap m.items = some B ∧
    m'.heap m.items = some (B.set (j * m.isz + k) v))

theorem Small.refl (m : Mem) (o : Op) (j : Nat) : Small m m o j := ⟨rfl, rfl, rfl, fun _ => rfl, Or.inl rfl⟩

theorem micro_small {m : Mem} {A : Nat → Prop} {ad : Prop} {ys : List (List Byte)} {o : Op} {pc : Pc} (h : Loc m A ad ys o pc) (hg : NoGrow pc)
    (hroom : IsAdd o → ys.length < m.capa) {m' : Mem} {x : Pc ⊕ Res} (hm : micro o m pc = .ok (m', x)) :
    Small m m' o (tgt ys o) ∧ ∀ pc', x = .inl pc' → NoGrow pc' := by
  cases pc with
  | idle =>
    cases o with
    | add y g => cases hm; exact ⟨.refl _ _ _, fun _ e => by cases e; trivial⟩
    | set y p =>
      simp only [micro] at hm
      split at hm <;> cases hm <;> exact ⟨.refl _ _ _, fun _ e => by cases e <;> trivial⟩
    | look i =>
      simp only [micro] at hm
      split at hm <;> cases hm <;> exact ⟨.refl _ _ _, fun _ e => by cases e <;> trivial⟩
  | gcap c =>
    obtain ⟨h0, rfl, _⟩ := h
    simp only [micro] at hm
    rw [if_neg (by have := hroom h0; omega)] at hm
    cases hm; exact ⟨.refl _ _ _, fun _ e => by cases e; trivial⟩
  | gptr => cases hg
  | gcap2 p => cases hg
  | gcall p k => cases hg
  | capl q => cases hg
  | caps q v => cases hg
  | setit q => cases hg
  | inc => cases hm; exact ⟨.refl _ _ _, fun _ e => by cases e; trivial⟩
  | incs v =>
    cases hm
    exact ⟨⟨rfl, rfl, rfl, fun hn => absurd h.2.1 hn, Or.inl rfl⟩, fun _ e => by cases e; trivial⟩
  | pos => cases hm; exact ⟨.refl _ _ _, fun _ e => by cases e; trivial⟩
  | chk p =>
    simp only [micro] at hm
    split at hm <;> cases hm <;> exact ⟨.refl _ _ _, fun _ e => by cases e <;> trivial⟩
  | addr p => cases hm; exact ⟨.refl _ _ _, fun _ e => by cases e; trivial⟩
  | cpy q off k =>
    obtain ⟨rfl, rfl, _, h2, _, _, ⟨B, b1, b2, b3⟩, _⟩ := h
    simp only [micro] at hm
    split at hm
    · rename_i hk
      unfold block at hm
      rw [b1] at hm
      simp only [pure_eq_ok, ok_bindE] at hm
      cases hr : rd (given o) k with
      | error e => rw [hr] at hm; cases hm
      | ok v =>
        rw [hr] at hm
        simp only [ok_bindE] at hm
        unfold wr at hm
        split at hm
        · cases hm
          refine ⟨⟨rfl, rfl, rfl, fun _ => rfl, Or.inr ⟨?_, B, k, v, hk, b1, upd_self _ _ _⟩⟩, fun _ e => by cases e; trivial⟩
          intro i e; subst e; cases h2
        · cases hm
    · cases hm; exact ⟨.refl _ _ _, fun _ e => by cases e⟩
  | laddr i => cases hm; exact ⟨.refl _ _ _, fun _ e => by cases e; trivial⟩
  | lrd q off acc =>
    obtain ⟨i, y, rfl, h1, rfl, rfl, h2, h3, h4, h5, ⟨B, b1, b2, b3⟩⟩ := h
    simp only [micro] at hm
    split at hm
    · unfold block at hm
      rw [b1] at hm
      simp only [pure_eq_ok, ok_bindE] at hm
      cases hr : rd B (i * m.isz + acc.length) with
      | error e => rw [hr] at hm; cases hm
      | ok v =>
        rw [hr] at hm
        cases hm
        exact ⟨.refl _ _ _, fun _ e => by cases e; trivial⟩
    · cases hm; exact ⟨.refl _ _ _, fun _ e => by cases e⟩

theorem Slots.small {m m' : Mem} {A : Nat → Prop} {ys : List (List Byte)} {ex : Option Nat} {o : Op} {j : Nat} (hs : Small m m' o j)
    (hj : (∀ i, o ≠ .look i) → ¬A j) (h : Slots m m.items m.capa A ys ex) : Slots m' m'.items m'.capa A ys ex := by
  obtain ⟨B, b1, b2, b3⟩ := h
  rw [hs.items, hs.capa]
  rcases hs.heap with e | ⟨hl, B', k, v, hk, e1, e2⟩
  · exact ⟨B, by rw [e, b1], by rw [hs.isz, b2], fun i hi hA hx => by rw [hs.isz]; exact b3 i hi hA hx⟩
  · rw [b1] at e1; cases e1
    refine ⟨_, e2, by rw [List.length_set, hs.isz, b2], fun i hi hA hx => ?_⟩
    rw [hs.isz]
    exact (b3 i hi hA hx).set_ne hk (fun e => hj hl (by rw [e]; exact hA)) _

/-- A small step of another thread. -/
theorem Loc.small {m m' : Mem} {A : Nat → Prop} {ad : Prop} {ys : List (List Byte)} {o o' : Op} {j : Nat} (hs : Small m m' o' j)
    (hj : (∀ i, o' ≠ .look i) → ¬A j) (had : IsAdd o → ad) (hc : m'.count = m.count ∨ (¬ad ∧ ∀ i, A i → (i < m'.count ↔ i < ys.length)))
    (ht : (∀ i, o ≠ .look i) → A (tgt ys o)) {pc : Pc} (hg : NoGrow pc) (h : Loc m A ad ys o pc) : Loc m' A ad ys o pc := by
  have hcnt : Cnt m A ad ys → Cnt m' A ad ys := by
    intro h
    rcases hc with e | ⟨e1, e2⟩
    · unfold Cnt; rw [e]; exact h
    · exact ⟨e2, fun h => absurd h e1⟩
  have hmid : Mid m A ad ys o → Mid m' A ad ys o := by
    intro h
    cases o with
    | add x g =>
      rcases hc with e | ⟨e1, e2⟩
      · show m'.count = _; rw [e]; exact h
      · exact absurd (had trivial) e1
    | set x p => exact ⟨hcnt h.1, h.2⟩
    | look i => exact h
  have hadd : ∀ {k : Nat}, IsAdd o → m.count = k → m'.count = k := by
    intro k h e
    rcases hc with e1 | ⟨e1, _⟩
    · omega
    · exact absurd (had h) e1
  cases pc with
  | idle => exact ⟨hcnt h.1, by rw [hs.capa]; exact h.2.1, h.2.2.small hs hj⟩
  | gcap c => exact ⟨h.1, h.2.1, hadd h.1 h.2.2.1, by rw [hs.capa]; exact h.2.2.2.1, h.2.2.2.2.small hs hj⟩
  | gptr => cases hg
  | gcap2 p => cases hg
  | gcall p k => cases hg
  | capl q => cases hg
  | caps q v => cases hg
  | setit q => cases hg
  | inc => exact ⟨h.1, hadd h.1 h.2.1, by rw [hs.capa]; exact h.2.2.1, h.2.2.2.small hs hj⟩
  | incs v => exact ⟨h.1, h.2.1, hadd h.2.1 h.2.2.1, by rw [hs.capa]; exact h.2.2.2.1, h.2.2.2.2.small hs hj⟩
  | pos => exact ⟨h.1, hadd h.1 h.2.1, by rw [hs.capa]; exact h.2.2.1, h.2.2.2.small hs hj⟩
  | chk p => exact ⟨h.1, h.2.1, hadd h.2.1 h.2.2.1, by rw [hs.capa]; exact h.2.2.2.1, h.2.2.2.2.small hs hj⟩
  | addr p => exact ⟨h.1, hmid h.2.1, by rw [hs.capa]; exact h.2.2.1, by rw [hs.capa]; exact h.2.2.2.1, h.2.2.2.2.small hs hj⟩
  | cpy q off k =>
    obtain ⟨rfl, rfl, h1, h2, h3, h4, h5, h6⟩ := h
    refine ⟨hs.items.symm, by rw [hs.isz], by rw [hs.isz]; exact h1, hmid h2, by rw [hs.capa]; exact h3, by rw [hs.capa]; exact h4,
      h5.small hs hj, fun B' hB' l hl => ?_⟩
    have hnl : ∀ i, o ≠ .look i := by intro i e; subst e; cases h2
    rw [hs.isz]
    rw [hs.items] at hB'
    rcases hs.heap with e | ⟨hl', B, k', v, hk, e1, e2⟩
    · rw [e] at hB'; exact h6 B' hB' l hl
    · rw [e2] at hB'; cases hB'
      rw [List.getElem?_set_ne]
      · exact h6 B e1 l hl
      · intro e
        have := (slot_inj hk (by omega) e).1
        exact hj hl' (this ▸ ht hnl)
  | laddr i => exact ⟨h.1, h.2.1, hcnt h.2.2.1, by rw [hs.capa]; exact h.2.2.2.1, h.2.2.2.2.small hs hj⟩
  | lrd q off acc =>
    obtain ⟨i, y, h0, h1, rfl, rfl, h2, h3, h4, h5, h6⟩ := h
    exact ⟨i, y, h0, h1, hs.items.symm, by rw [hs.isz], h2, by rw [hs.isz]; exact h3, hcnt h4, by rw [hs.capa]; exact h5, h6.small hs hj⟩

theorem Loc.count_ge {m : Mem} {A : Nat → Prop} {ad : Prop} {ys : List (List Byte)} {o : Op} {pc : Pc} (had : ad) (h : Loc m A ad ys o pc) :
    ys.length ≤ m.count := by
  have hmid : Mid m A ad ys o → ys.length ≤ m.count := by
    intro h
    cases o with
    | add x g => have : m.count = ys.length + 1 := h; omega
    | set x p => have := h.1.2 had; omega
    | look i => cases h
  cases pc with
  | idle => have := h.1.2 had; omega
  | gcap c => have := h.2.2.1; omega
  | gptr => have := h.2.1; omega
  | gcap2 p => have := h.2.2.1; omega
  | gcall p k => have := h.2.2.2.1; omega
  | capl q => have := h.2.1; omega
  | caps q v => have := h.2.2.1; omega
  | setit q => have := h.2.1; omega
  | inc => have := h.2.1; omega
  | incs v => have := h.2.2.1; omega
  | pos => have := h.2.1; omega
  | chk p => have := h.2.2.1; omega
  | addr p => exact hmid h.2.1
  | cpy q off k => exact hmid h.2.2.2.1
  | laddr i => have := h.2.2.1.2 had; omega
  | lrd q off acc =>
    obtain ⟨i, y, h0, h1, _, _, h2, h3, h4, h5, h6⟩ := h
    have := h4.2 had; omega

/-- No other thread sets item `i`. -/
def Own (n : Nat) (prog : Nat → List Op) (t i : Nat) : Prop := ∀ u, u ≠ t → ∀ b ∈ prog u, ¬Sets n b i

/-- The thread adds items. -/
def Adds (prog : Nat → List Op) (t : Nat) : Prop := ∃ o ∈ prog t, IsAdd o

/-- The invariant of threads that are apart. -/
structure AInv (xs : List (List Byte)) (prog : Nat → List Op) (z c : Nat) (s : St) (ys : Nat → List (List Byte)) : Prop where
  base : Base s.mem
  isz : s.mem.isz = z
  capa : s.mem.capa = c
  none : (∀ t, ¬Adds prog t) → s.mem.count = xs.length
  sized : ∀ t, ∀ y ∈ ys t, y.length = z
  steps : ∀ t, ∃ done, prog t = done ++ (s.th t).calls ∧ Steps xs done (ys t) (s.th t).out
  room : ∀ t, (ys t).length + adds (s.th t).calls ≤ c
  ge : ∀ t, xs.length ≤ (ys t).length
  same : ∀ t, ¬Adds prog t → (ys t).length = xs.length
  grow : ∀ t, NoGrow (s.th t).pc
  rest : ∀ t, (s.th t).calls = [] → (s.th t).pc = .idle
  loc : ∀ t, Loc s.mem (Own xs.length prog t) (Adds prog t) (ys t) ((s.th t).calls.headD (.look 0)) (s.th t).pc

theorem adds_cons (o : Op) (os : List Op) : adds (o :: os) = adds [o] + adds os := by
  cases o <;> simp [adds]; omega

theorem ainv_step {xs : List (List Byte)} {prog : Nat → List Op} {z c : Nat} (hb : c * z < 2^64) (hap : Apart xs.length prog)
    (hok : ∀ t, ∀ o ∈ prog t, OpOk z o) {s : St} {ys : Nat → List (List Byte)} (h : AInv xs prog z c s ys) (t : Nat) :
    ∃ s' ys', step s t = .ok s' ∧ AInv xs prog z c s' ys' := by
  cases hc : (s.th t).calls with
  | nil => exact ⟨s, ys, step_nil hc, h⟩
  | cons o os =>
    have hpre : ∀ u, ∀ o ∈ (s.th u).calls, o ∈ prog u := by
      intro u o ho
      obtain ⟨d, hd, _⟩ := h.steps u
      rw [hd]; exact List.mem_append_right _ ho
    have hmem : o ∈ prog t := hpre t o (by rw [hc]; simp)
    have huse : ∀ u, ∀ o ∈ prog u, ∀ i, Uses xs.length o i → Own xs.length prog u i := by
      intro u o ho i hi v hv b hb' hs
      exact hap v u hv b hb' o ho i hs hi
    have hloc := h.loc t
    rw [hc] at hloc
    simp only [List.headD_cons] at hloc
    have hroom : (ys t).length + adds [o] + adds os ≤ c := by
      have := h.room t
      rw [hc, adds_cons] at this; omega
    have hra : IsAdd o → adds [o] = 1 := by
      intro ha; cases o with
      | add => rfl
      | set => cases ha
      | look => cases ha
    have hroom1 : IsAdd o → (ys t).length < s.mem.capa := by
      intro ha
      have := hra ha
      rw [h.capa]; omega
    have hnext := micro_loc h.base (by rw [h.isz]; exact h.sized t) (by rw [h.isz]; exact hok t o hmem) (fun ha => ⟨o, hmem, ha⟩)
      (fun i hi => huse t o hmem i (by rcases hi with rfl | ⟨x, rfl⟩ <;> simp [Uses]))
      (by rw [h.isz]; exact Sblist.mul_lt_of hb (by omega))
      (fun ha => by rw [h.isz]; exact Sblist.mul_lt_of hb (by have := hra ha; omega))
      (fun ha e => absurd e (by have := hroom1 ha; omega)) hloc
    have htgt : ∀ u o, o ∈ prog u → (∀ i, o ≠ .look i) → Sets xs.length o (tgt (ys u) o) ∧ Uses xs.length o (tgt (ys u) o) := by
      intro u o ho hl
      cases o with
      | add x g => exact ⟨h.ge u, h.ge u⟩
      | set x p => exact ⟨rfl, rfl⟩
      | look i => exact absurd rfl (hl i)
    have hother : ∀ m' : Mem, Small s.mem m' o (tgt (ys t) o) → (Adds prog t → xs.length ≤ m'.count) → ∀ u, u ≠ t →
        Loc m' (Own xs.length prog u) (Adds prog u) (ys u) ((s.th u).calls.headD (.look 0)) (s.th u).pc := by
      intro m' hs hge u hu
      have hhead : (∃ i, (s.th u).calls.headD (.look 0) = .look i) ∨ (s.th u).calls.headD (.look 0) ∈ prog u := by
        cases hcu : (s.th u).calls with
        | nil => left; exact ⟨0, rfl⟩
        | cons b bs => right; exact hpre u b (by rw [hcu]; simp)
      refine Loc.small hs ?_ ?_ ?_ ?_ (h.grow u) (h.loc u)
      · intro hl hA
        exact hA t (fun e => hu e.symm) o hmem (htgt t o hmem hl).1
      · intro ha
        rcases hhead with ⟨i, e⟩ | e
        · rw [e] at ha; cases ha
        · exact ⟨_, e, ha⟩
      · by_cases ha : IsAdd o
        · right
          have hnad : ¬Adds prog u := by
            rintro ⟨b, hb1, hb2⟩
            have h1 : Sets xs.length o xs.length := by
              cases o with
              | add => exact Nat.le_refl _
              | set => cases ha
              | look => cases ha
            have h2 : Uses xs.length b xs.length := by
              cases b with
              | add => exact Nat.le_refl _
              | set => cases hb2
              | look => cases hb2
            exact hap t u (fun e => hu e.symm) o hmem b hb1 _ h1 h2
          refine ⟨hnad, fun i hA => ?_⟩
          have hlt : i < xs.length := by
            by_contra hge
            refine hA t (fun e => hu e.symm) o hmem ?_
            cases o with
            | add => show xs.length ≤ i; omega
            | set => cases ha
            | look => cases ha
          have := hge ⟨o, hmem, ha⟩
          rw [h.same u hnad]
          constructor <;> intro _ <;> omega
        · left; exact hs.count ha
      · intro hl
        rcases hhead with ⟨i, e⟩ | e
        · exact absurd e (hl i)
        · exact huse u _ e _ (htgt u _ e hl).2
    cases hm : micro o s.mem (s.th t).pc with
    | error e => rw [hm] at hnext; cases hnext
    | ok v =>
      rw [hm] at hnext
      obtain ⟨m', x⟩ := v
      obtain ⟨hsm, hng⟩ := micro_small hloc (h.grow t) hroom1 hm
      cases x with
      | inl pc =>
        obtain ⟨n1, n2, n3, n4, n5⟩ := hnext
        refine ⟨_, ys, step_inl hc hm, n1, by rw [n2, h.isz], by rw [hsm.capa, h.capa], ?_, h.sized, fun u => ?_, fun u => ?_, h.ge, h.same,
          fun u => ?_, fun u hu => ?_, fun u => ?_⟩
        · intro hna
          rw [hsm.count (fun ha => hna t ⟨o, hmem, ha⟩)]
          exact h.none hna
        · by_cases e : u = t
          · subst e; simp only [upd_self]; rw [← hc]; exact h.steps u
          · simp only [upd_ne _ _ e]; exact h.steps u
        · by_cases e : u = t
          · subst e; simp only [upd_self]; rw [← hc]; exact h.room u
          · simp only [upd_ne _ _ e]; exact h.room u
        · by_cases e : u = t
          · subst e; simp only [upd_self]; exact hng pc rfl
          · simp only [upd_ne _ _ e]; exact h.grow u
        · by_cases e : u = t
          · subst e; simp only [upd_self] at hu; cases hu
          · simp only [upd_ne _ _ e] at hu ⊢; exact h.rest u hu
        · by_cases e : u = t
          · subst e; simp only [upd_self, List.headD_cons]; exact n5
          · simp only [upd_ne _ _ e]
            exact hother m' hsm (fun ha => Nat.le_trans (h.ge t) (n5.count_ge ha)) u e
      | inr r =>
        obtain ⟨n1, n2, n3, zs, n4, n5, n6⟩ := hnext
        obtain ⟨l1, l2, l3⟩ := n4.len
        refine ⟨_, upd ys t zs, step_inr hc hm, n1, by rw [n2, h.isz], by rw [hsm.capa, h.capa], ?_, fun u => ?_, fun u => ?_, fun u => ?_,
          fun u => ?_, fun u hu => ?_, fun u => ?_, fun u hu => ?_, fun u => ?_⟩
        · intro hna
          rw [hsm.count (fun ha => hna t ⟨o, hmem, ha⟩)]
          exact h.none hna
        · by_cases e : u = t
          · subst e; simp only [upd_self]; exact n4.sized (hok u o hmem) (h.sized u)
          · simp only [upd_ne _ _ e]; exact h.sized u
        · by_cases e : u = t
          · subst e; simp only [upd_self]
            obtain ⟨d, d1, d2⟩ := h.steps u
            exact ⟨d ++ [o], by rw [d1, hc]; simp, .snoc d2 n4⟩
          · simp only [upd_ne _ _ e]; exact h.steps u
        · by_cases e : u = t
          · subst e; simp only [upd_self]; omega
          · simp only [upd_ne _ _ e]; exact h.room u
        · by_cases e : u = t
          · subst e; simp only [upd_self]; have := h.ge u; omega
          · simp only [upd_ne _ _ e]; exact h.ge u
        · by_cases e : u = t
          · subst e; simp only [upd_self]; rw [l3 (fun ha => hu ⟨o, hmem, ha⟩)]; exact h.same u hu
          · simp only [upd_ne _ _ e]; exact h.same u hu
        · by_cases e : u = t
          · subst e; simp only [upd_self]; trivial
          · simp only [upd_ne _ _ e]; exact h.grow u
        · by_cases e : u = t
          · subst e; simp only [upd_self]
          · simp only [upd_ne _ _ e] at hu ⊢; exact h.rest u hu
        · by_cases e : u = t
          · subst e; simp only [upd_self]; exact n5
          · simp only [upd_ne _ _ e]
            exact hother m' hsm (fun ha => Nat.le_trans (h.ge t) (Nat.le_trans l1 (n5.count_ge ha))) u e

theorem ainv_run {xs : List (List Byte)} {prog : Nat → List Op} {z c : Nat} (hb : c * z < 2^64) (hap : Apart xs.length prog)
    (hok : ∀ t, ∀ o ∈ prog t, OpOk z o) : ∀ {sched : List Nat} {s : St} {ys : Nat → List (List Byte)}, AInv xs prog z c s ys →
    ∃ s' ys', run s sched = .ok s' ∧ AInv xs prog z c s' ys'
  | [], s, ys, h => ⟨s, ys, rfl, h⟩
  | t :: ts, s, ys, h => by
    obtain ⟨s1, y1, e1, i1⟩ := ainv_step hb hap hok h t
    obtain ⟨s2, y2, e2, i2⟩ := ainv_run hb hap hok (sched := ts) i1
    exact ⟨s2, y2, by simp only [run, e1]; exact e2, i2⟩

theorem Spec.Holds.ainv {m : Mem} {xs : List (List Byte)} (h : Holds m xs) {prog : Nat → List Op}
    (hr : ∀ t, xs.length + adds (prog t) ≤ m.capa) : AInv xs prog m.isz m.capa (start m prog) (fun _ => xs) := by
  have hc : m.count = xs.length := h.rep.count
  have hs := slots_of_holds h
  refine ⟨h.base, rfl, rfl, fun _ => hc, fun _ => h.rep.item, fun t => ⟨[], rfl, .nil⟩, hr, fun _ => Nat.le_refl _, fun _ _ => rfl,
    fun _ => trivial, fun _ _ => rfl, fun t => ?_⟩
  obtain ⟨B, b1, b2, b3⟩ := hs
  refine ⟨⟨fun i _ => by show i < m.count ↔ _; rw [hc], fun _ => hc⟩, ?_, B, b1, b2, fun i hi _ hx => b3 i hi trivial hx⟩
  have := hr t
  show xs.length ≤ m.capa
  omega

/-! ### Schedules that go wrong -/

/-- Steps of one call. -/
inductive Path (o : Op) : Mem → Pc → Mem → Pc → Prop
  | refl {m pc} : Path o m pc m pc
  | step {m pc m1 pc1 m2 pc2} : micro o m pc = .ok (m1, .inl pc1) → Path o m1 pc1 m2 pc2 → Path o m pc m2 pc2

theorem Path.trans {o : Op} {m pc m1 pc1 m2 pc2} (h : Path o m pc m1 pc1) (h' : Path o m1 pc1 m2 pc2) : Path o m pc m2 pc2 := by
  induction h with
  | refl => exact h'
  | step e _ ih => exact .step e (ih h')

/-- A schedule leads from one state to the other. -/
def Reach (s s' : St) : Prop := ∃ sched, run s sched = .ok s'

theorem Reach.trans {s s1 s2 : St} (h : Reach s s1) (h' : Reach s1 s2) : Reach s s2 := by
  obtain ⟨a, ha⟩ := h
  obtain ⟨b, hb⟩ := h'
  exact ⟨a ++ b, by rw [run_append, ha]; exact hb⟩

theorem Reach.refl (s : St) : Reach s s := ⟨[], rfl⟩

theorem Reach.of_step {s s' : St} {t : Nat} (h : step s t = .ok s') : Reach s s' := ⟨[t], by simp only [run, h]; rfl⟩

theorem Reach.error {s s1 : St} {t : Nat} {e : UB} (h : Reach s s1) (h' : step s1 t = .error e) : ∃ sched, run s sched = .error e := by
  obtain ⟨a, ha⟩ := h
  exact ⟨a ++ [t], by rw [run_append, ha]; simp only [ok_bindE, run, h']; rfl⟩

/-- Two threads among others. -/
def two (f : Nat → Thread) (t u : Nat) (T U : Thread) : Nat → Thread := upd (upd f t T) u U

theorem two_left {f : Nat → Thread} {t u : Nat} (h : t ≠ u) (T U : Thread) : two f t u T U t = T := by
  unfold two; rw [upd_ne _ _ h, upd_self]

theorem two_right {f : Nat → Thread} {t u : Nat} (T U : Thread) : two f t u T U u = U := by
  unfold two; rw [upd_self]

theorem upd_two_left {f : Nat → Thread} {t u : Nat} (h : t ≠ u) (T U T' : Thread) : upd (two f t u T U) t T' = two f t u T' U := by
  funext v
  unfold two upd
  by_cases h1 : v = t
  · subst h1; simp [h]
  · by_cases h2 : v = u
    · subst h2; simp [h1]
    · simp [h1, h2]

theorem upd_two_right {f : Nat → Thread} {t u : Nat} (T U U' : Thread) : upd (two f t u T U) u U' = two f t u T U' := by
  funext v
  unfold two upd
  by_cases h2 : v = u <;> simp [h2]

theorem two_start {f : Nat → Thread} {t u : Nat} : two f t u (f t) (f u) = f := by
  funext v
  unfold two upd
  by_cases h1 : v = u
  · subst h1; simp
  · by_cases h2 : v = t
    · subst h2; simp [h1]
    · simp [h1, h2]

theorem at_inl {m0 m : Mem} {f : Nat → Thread} {t : Nat} {o : Op} {os : List Op} {pc pc' : Pc} {out : List Res} (hT : f t = ⟨o :: os, pc, out⟩)
    (h : micro o m0 pc = .ok (m, .inl pc')) : step ⟨m0, f⟩ t = .ok ⟨m, upd f t ⟨o :: os, pc', out⟩⟩ := by
  have := step_inl (s := ⟨m0, f⟩) (t := t) (o := o) (os := os) (m := m) (pc := pc') (by simp only [hT]) (by simp only [hT]; exact h)
  simpa only [hT] using this

theorem at_inr {m0 m : Mem} {f : Nat → Thread} {t : Nat} {o : Op} {os : List Op} {pc : Pc} {out : List Res} {r : Res} (hT : f t = ⟨o :: os, pc, out⟩)
    (h : micro o m0 pc = .ok (m, .inr r)) : step ⟨m0, f⟩ t = .ok ⟨m, upd f t ⟨os, .idle, out ++ [r]⟩⟩ := by
  have := step_inr (s := ⟨m0, f⟩) (t := t) (o := o) (os := os) (m := m) (r := r) (by simp only [hT]) (by simp only [hT]; exact h)
  simpa only [hT] using this

theorem at_err {m0 : Mem} {f : Nat → Thread} {t : Nat} {o : Op} {os : List Op} {pc : Pc} {out : List Res} {e : UB} (hT : f t = ⟨o :: os, pc, out⟩)
    (h : micro o m0 pc = .error e) : step ⟨m0, f⟩ t = .error e :=
  step_err (s := ⟨m0, f⟩) (o := o) (os := os) (by simp only [hT]) (by simp only [hT]; exact h)

theorem left_path {f : Nat → Thread} {t u : Nat} (h : t ≠ u) {o : Op} {os : List Op} {out : List Res} {U : Thread} {m pc m' pc'}
    (hp : Path o m pc m' pc') : Reach ⟨m, two f t u ⟨o :: os, pc, out⟩ U⟩ ⟨m', two f t u ⟨o :: os, pc', out⟩ U⟩ := by
  induction hp with
  | refl => exact .refl _
  | step e _ ih =>
    refine Reach.trans (Reach.of_step (t := t) ?_) ih
    rw [at_inl (two_left h _ _) e, upd_two_left h]

theorem right_path {f : Nat → Thread} {t u : Nat} {o : Op} {os : List Op} {out : List Res} {T : Thread} {m pc m' pc'}
    (hp : Path o m pc m' pc') : Reach ⟨m, two f t u T ⟨o :: os, pc, out⟩⟩ ⟨m', two f t u T ⟨o :: os, pc', out⟩⟩ := by
  induction hp with
  | refl => exact .refl _
  | step e _ ih =>
    refine Reach.trans (Reach.of_step (t := u) ?_) ih
    rw [at_inl (two_right _ _) e, upd_two_right]

theorem left_done {f : Nat → Thread} {t u : Nat} (h : t ≠ u) {o : Op} {os : List Op} {out : List Res} {U : Thread} {m pc m' r}
    (e : micro o m pc = .ok (m', .inr r)) :
    Reach ⟨m, two f t u ⟨o :: os, pc, out⟩ U⟩ ⟨m', two f t u ⟨os, .idle, out ++ [r]⟩ U⟩ := by
  refine Reach.of_step (t := t) ?_
  rw [at_inr (two_left h _ _) e, upd_two_left h]

theorem right_done {f : Nat → Thread} {t u : Nat} {o : Op} {os : List Op} {out : List Res} {T : Thread} {m pc m' r}
    (e : micro o m pc = .ok (m', .inr r)) :
    Reach ⟨m, two f t u T ⟨o :: os, pc, out⟩⟩ ⟨m', two f t u T ⟨os, .idle, out ++ [r]⟩⟩ := by
  refine Reach.of_step (t := u) ?_
  rw [at_inr (two_right _ _) e, upd_two_right]

theorem left_err {f : Nat → Thread} {t u : Nat} (h : t ≠ u) {o : Op} {os : List Op} {out : List Res} {U : Thread} {m pc} {e : UB}
    (he : micro o m pc = .error e) : step ⟨m, two f t u ⟨o :: os, pc, out⟩ U⟩ t = .error e :=
  at_err (two_left h _ _) he

theorem right_err {f : Nat → Thread} {t u : Nat} {o : Op} {os : List Op} {out : List Res} {T : Thread} {m pc} {e : UB}
    (he : micro o m pc = .error e) : step ⟨m, two f t u T ⟨o :: os, pc, out⟩⟩ u = .error e :=
  at_err (two_right _ _) he

/-- Copying a part of an item. -/
theorem cpy_path {o : Op} {m : Mem} {q off : Nat} {B : List Byte} (hB : m.heap q = some B) (hx : (given o).length = m.isz)
    (hl : off + m.isz ≤ B.length) (k : Nat) : ∀ (d : Nat), k + d ≤ m.isz →
    ∃ H, Path o m (.cpy q off k) { m with heap := H } (.cpy q off (k + d)) ∧ (∀ p, p ≠ q → H p = m.heap p) ∧
      H q = some (B.take (off + k) ++ ((given o).drop k).take d ++ B.drop (off + k + d))
  | 0, _ => ⟨m.heap, .refl, fun _ _ => rfl, by simp [hB]⟩
  | d + 1, hd => by
    obtain ⟨H, h1, h2, h3⟩ := cpy_path hB hx hl k d (by omega)
    have hlen : (B.take (off + k) ++ ((given o).drop k).take d).length = off + (k + d) := by simp; omega
    have hdr : B.drop (off + k + d) = B[off + k + d] :: B.drop (off + k + d + 1) := List.drop_eq_getElem_cons (by omega)
    have ht : ((given o).drop k).take (d + 1) = ((given o).drop k).take d ++ [(given o)[k + d]] := by
      rw [List.take_add_one, List.getElem?_drop, List.getElem?_eq_getElem (by omega)]; rfl
    refine ⟨upd H q (some (B.take (off + k) ++ ((given o).drop k).take (d + 1) ++ B.drop (off + k + (d + 1)))), h1.trans (.step ?_ .refl),
      fun p hp => by rw [upd_ne _ _ hp]; exact h2 p hp, upd_self _ _ _⟩
    simp only [micro]
    rw [if_pos (by omega)]
    unfold block
    simp only [h3, pure_eq_ok, ok_bindE, rd_ok (show k + d < (given o).length by omega)]
    rw [wr_ok (by simp; omega)]
    simp only [ok_bindE]
    rw [← hlen, List.set_append_right _ _ (Nat.le_refl _), Nat.sub_self, hdr, List.set_cons_zero, ht]
    simp [Nat.add_assoc]

/-- Reading the bytes of an item. -/
theorem lrd_path {o : Op} {m : Mem} {q off : Nat} {B : List Byte} (hB : m.heap q = some B)
    (hl : off + m.isz ≤ B.length) : ∀ (d : Nat), d ≤ m.isz → Path o m (.lrd q off []) m (.lrd q off ((B.drop off).take d))
  | 0, _ => by simp only [List.take_zero]; exact .refl
  | d + 1, hd => by
    refine (lrd_path hB hl d (by omega)).trans (.step ?_ .refl)
    have hlen : ((B.drop off).take d).length = d := by simp; omega
    simp only [micro]
    rw [if_pos (by omega)]
    unfold block
    simp only [hB, hlen, pure_eq_ok, ok_bindE, rd_ok (show off + d < B.length by omega)]
    rw [List.take_add_one, List.getElem?_drop, List.getElem?_eq_getElem (by omega)]
    rfl

theorem Spec.Holds.len {m : Mem} {xs : List (List Byte)} (h : Holds m xs) : m.count = xs.length := h.rep.count

theorem Spec.Holds.room {m : Mem} {xs : List (List Byte)} (h : Holds m xs) : xs.length ≤ m.capa := by rw [← h.len]; exact h.rep.capa

theorem Spec.Holds.z {m : Mem} {xs : List (List Byte)} (h : Holds m xs) : 0 < m.isz := h.rep.isz

theorem lt_of_mul {n z : Nat} (hz : 0 < z) (h : n * z < 2^64) : n < 2^64 := Nat.lt_of_le_of_lt (Nat.le_mul_of_pos_right _ hz) h

/-- `sblist_add` with room up to the increment. -/
theorem add_inc {m : Mem} {x : List Byte} {g : Grow} (h : m.count ≠ m.capa) : Path (.add x g) m .idle m .inc :=
  .step rfl (.step (by simp only [micro]; rw [if_neg h]; rfl) .refl)

/-- `sblist_add` from the store of `count` to the copy. -/
theorem add_cpy {m : Mem} {x : List Byte} {g : Grow} {n : Nat} (h : m.count = n + 1) (hz : 0 < m.isz) (hb : (n + 1) * m.isz < 2^64) :
    Path (.add x g) m .pos m (.cpy m.items (n * m.isz) 0) := by
  have h1 := lt_of_mul hz hb
  refine .step (m1 := m) (pc1 := .chk n) ?_ (.step (m1 := m) (pc1 := .addr n) ?_ (.step ?_ .refl))
  · simp only [micro]
    rw [sztSub_of_le (by omega) (by omega), h]; rfl
  · simp only [micro]
    rw [if_neg (by omega)]; rfl
  · simp only [micro]
    rw [szt_of_lt (Sblist.mul_lt_of hb (by omega))]; rfl

/-- The copy of a whole item, with what the call gives. -/
theorem cpy_done {o : Op} {m : Mem} {q off : Nat} : micro o m (.cpy q off m.isz) = .ok (m, .inr (.int 1)) := by
  simp only [micro]; rw [if_neg (by omega)]; rfl

/-- The items before a write behind them. -/
theorem slots_append {m m' : Mem} {xs : List (List Byte)} {B : List Byte} {y : List Byte} (h : Holds m xs) (hB : m.heap m.items = some B)
    (hz : m'.isz = m.isz) (hi : m'.items = m.items) (hc : m'.capa = m.capa) (hr : xs.length < m.capa) (hy : y.length = m.isz)
    (hB' : m'.heap m.items = some (B.take (xs.length * m.isz) ++ y ++ B.drop (xs.length * m.isz + m.isz))) :
    Slots m' m'.items m'.capa (fun _ => True) (xs ++ [y]) none := by
  obtain ⟨B2, b1, b2, b3⟩ := slots_of_holds h
  rw [hB] at b1; cases b1
  have hle := Nat.mul_le_mul_right m.isz (show xs.length + 1 ≤ m.capa by omega)
  rw [Nat.add_mul, Nat.one_mul] at hle
  have hlt : (B.take (xs.length * m.isz)).length = xs.length * m.isz := by simp; omega
  rw [hi, hc]
  refine ⟨_, hB', ?_, fun i hl _ _ k hk => ?_⟩
  · rw [hz, List.length_append, List.length_append, hlt, List.length_drop, b2, hy]; omega
  · rw [hz] at hk ⊢
    by_cases e : i < xs.length
    · rw [List.append_assoc, List.getElem?_append_left (by rw [hlt]; exact slot_lt hk e), List.getElem?_take_of_lt (slot_lt hk e),
        b3 i e trivial (by simp) k hk, List.getElem_append_left e]
    · simp only [List.length_append, List.length_singleton] at hl
      have : i = xs.length := by omega
      subst this
      rw [List.append_assoc, List.getElem?_append_right (by rw [hlt]; omega), hlt, Nat.add_sub_cancel_left,
        List.getElem?_append_left (by omega)]
      simp

/-! ### Schedules without overlap -/

theorem step_other {s s' : St} {t u : Nat} (h : step s t = .ok s') (hu : u ≠ t) : s'.th u = s.th u := by
  unfold step at h
  dsimp only at h
  split at h
  · cases h; rfl
  · rename_i o os hc
    cases hm : micro o s.mem (s.th t).pc with
    | error e => rw [hm] at h; cases h
    | ok v =>
      rw [hm] at h
      obtain ⟨m, pc | r⟩ := v <;> cases h <;> exact upd_ne _ _ hu

theorem run_other {t u : Nat} (hu : u ≠ t) : ∀ {k : Nat} {s s' : St}, run s (List.replicate k t) = .ok s' → s'.th u = s.th u
  | 0, s, s', h => by cases h; rfl
  | k + 1, s, s', h => by
    simp only [List.replicate_succ, run] at h
    cases e : step s t with
    | error e' => rw [e] at h; cases h
    | ok s1 =>
      rw [e] at h
      rw [run_other hu h, step_other e hu]

theorem one_noOverlap {t : Nat} : ∀ {k : Nat} {s : St}, (∀ u, u ≠ t → (s.th u).pc = .idle) → NoOverlap s (List.replicate k t)
  | 0, _, _ => trivial
  | k + 1, s, h => ⟨h, fun s' e => one_noOverlap fun u hu => by rw [step_other e hu]; exact h u hu⟩

theorem noOverlap_append : ∀ {a b : List Nat} {s : St}, NoOverlap s a → (∀ s', run s a = .ok s' → NoOverlap s' b) → NoOverlap s (a ++ b)
  | [], _, s, _, h => h s rfl
  | t :: a, b, s, h1, h2 => ⟨h1.1, fun s' e => noOverlap_append (h1.2 s' e) fun s2 e2 => h2 s2 (by simp only [run, e]; exact e2)⟩

theorem two_of_start {m : Mem} {prog : Nat → List Op} {t u : Nat} {a b : List Op} (ht : prog t = a) (hu : prog u = b) :
    start m prog = ⟨m, two (start m prog).th t u ⟨a, .idle, []⟩ ⟨b, .idle, []⟩⟩ := by
  have := two_start (f := (start m prog).th) (t := t) (u := u)
  have h1 : (start m prog).th t = ⟨a, .idle, []⟩ := by simp [start, ht]
  have h2 : (start m prog).th u = ⟨b, .idle, []⟩ := by simp [start, hu]
  rw [h1, h2] at this
  rw [this]
  rfl

theorem items_ne {m : Mem} {xs : List (List Byte)} (h : Holds m xs) (hc : 0 < m.capa) : m.items ≠ 0 := by
  intro e
  obtain ⟨B, b1, b2, _⟩ := slots_of_holds h
  rw [e, h.null] at b1; cases b1
  have := Nat.mul_pos hc h.z
  simp at b2; omega

theorem Spec.Holds.live_lt {m : Mem} {xs : List (List Byte)} (h : Holds m xs) {B : List Byte} (hB : m.heap m.items = some B) : m.items < m.next := by
  by_contra hc
  have := h.fresh m.items (by omega)
  rw [hB] at this; cases this

/-- A `realloc` that moves the block. -/
theorem regrow_move {m : Mem} {B : List Byte} (hB : m.heap m.items = some B) (hne : m.items ≠ 0) (f : Nat → Byte) (hlt : m.items < m.next) (n : Nat) :
    ∃ m' q, regrow m (some (false, f)) m.items n = .ok (m', some q) ∧ m'.heap m.items = none ∧ m'.isz = m.isz := by
  unfold regrow block
  rw [hB]
  simp only [pure_eq_ok, ok_bindE, Bool.false_eq_true, false_and, if_false, if_neg hne]
  refine ⟨_, _, rfl, ?_, rfl⟩
  dsimp only
  rw [upd_ne _ _ (by omega), upd_self]

/-- `sblist_add` on a full list up to the call of `realloc`. -/
theorem add_call {m : Mem} {x : List Byte} {g : Grow} (h : m.count = m.capa) : Path (.add x g) m .idle m (.gcall m.items m.capa) :=
  .step rfl (.step (by simp only [micro]; rw [if_pos h]; rfl) (.step rfl (.step rfl .refl)))

theorem slot_of_holds {m : Mem} {xs : List (List Byte)} (h : Holds m xs) {i : Nat} (hi : i < xs.length) :
    ((view m).items.drop (i * m.isz)).take m.isz = xs[i] := by
  obtain ⟨B, b1, b2, b3⟩ := slots_of_holds h
  have hv : (view m).items = B := by simp [view, b1]
  rw [hv]
  have hle : (i + 1) * m.isz ≤ m.capa * m.isz := Nat.mul_le_mul_right _ (by have := h.room; omega)
  rw [Nat.add_mul] at hle
  apply List.ext_getElem?
  intro k
  by_cases hk : k < m.isz
  · rw [List.getElem?_take_of_lt hk, List.getElem?_drop]
    exact b3 i hi trivial (by simp) k hk
  · have hy : xs[i].length = m.isz := h.rep.item _ (List.getElem_mem _)
    rw [List.getElem?_eq_none (by simp; omega), List.getElem?_eq_none (by omega)]

/-- One thread has copied `k` bytes of an item when the other one looks at it. -/
theorem half_item {m : Mem} {xs : List (List Byte)} (h : Holds m xs) {i : Nat} (hi : i < m.capa) {s0 : St} {f : Nat → Thread} {t u : Nat}
    {o : Op} {ps qs : List Op} (e0 : s0 = ⟨m, two f t u ⟨o :: ps, .idle, []⟩ ⟨.look i :: qs, .idle, []⟩⟩) (hx : (given o).length = m.isz)
    (htu : t ≠ u) {m1 : Mem} (h1 : m1.isz = m.isz) (h2 : m1.items = m.items) (h3 : m1.heap = m.heap)
    (hp : Reach ⟨m, two f t u ⟨o :: ps, .idle, []⟩ ⟨.look i :: qs, .idle, []⟩⟩
      ⟨m1, two f t u ⟨o :: ps, .cpy m1.items (i * m1.isz) 0, []⟩ ⟨.look i :: qs, .idle, []⟩⟩)
    (hc : i < m1.count) (hmul : szt (i * m.isz) = i * m.isz) {k : Nat} (hk : k ≤ m.isz) {old : List Byte}
    (hold : ((view m).items.drop (i * m.isz)).take m.isz = old) :
    ∃ sched s, run s0 sched = .ok s ∧ s.th u = ⟨qs, .idle, [.item (some ((given o).take k ++ old.drop k))]⟩ := by
  obtain ⟨B, b1, b2, b3⟩ := slots_of_holds h
  have hv : (view m).items = B := by simp [view, b1]
  rw [hv] at hold
  have hle : (i + 1) * m.isz ≤ m.capa * m.isz := Nat.mul_le_mul_right _ (by omega)
  rw [Nat.add_mul] at hle
  obtain ⟨H, p1, p2, p3⟩ := cpy_path (o := o) (m := m1) (q := m1.items) (off := i * m1.isz) (B := B) (by rw [h2, h3]; exact b1) (by rw [h1]; exact hx)
    (by rw [h1]; omega) 0 k (by omega)
  rw [Nat.zero_add] at p1
  have hread := lrd_path (o := .look i) (m := { m1 with heap := H }) (q := m1.items) (off := i * m1.isz) p3
    (by simp; rw [h1]; omega) m1.isz (Nat.le_refl _)
  have r := hp.trans ((left_path htu p1).trans (right_path (f := f) (t := t) (u := u) (os := qs) (out := []) (T := ⟨o :: ps, .cpy m1.items (i * m1.isz) k, []⟩)
    (.step (m1 := { m1 with heap := H }) (pc1 := .laddr i) (by simp only [micro]; rw [if_pos hc]; rfl)
    (.step (m1 := { m1 with heap := H }) (pc1 := .lrd m1.items (i * m1.isz) []) (by simp only [micro]; rw [h1, hmul]; rfl) hread))))
  have hval : ((B.take (i * m1.isz + 0) ++ ((given o).drop 0).take k ++ B.drop (i * m1.isz + 0 + k)).drop (i * m1.isz)).take m1.isz =
      (given o).take k ++ old.drop k := by
    have hlt : (B.take (i * m.isz)).length = i * m.isz := by simp; omega
    rw [h1]
    simp only [Nat.add_zero, List.drop_zero]
    rw [List.append_assoc, List.drop_append, List.drop_of_length_le (by omega), hlt, Nat.sub_self, List.drop_zero, List.nil_append,
      List.take_append, List.take_take, Nat.min_eq_right hk, ← hold, List.drop_take, List.drop_drop]
    congr 2
    simp; omega
  rw [hval] at r
  have hvl : ((given o).take k ++ old.drop k).length = m.isz := by
    rw [← hold]; simp; omega
  have hfin : micro (.look i) { m1 with heap := H } (.lrd m1.items (i * m1.isz) ((given o).take k ++ old.drop k)) =
      .ok ({ m1 with heap := H }, .inr (.item (some ((given o).take k ++ old.drop k)))) := by
    simp only [micro]
    rw [if_neg (by rw [hvl, h1]; omega)]; rfl
  obtain ⟨sched, hs⟩ := r.trans (right_done hfin)
  exact ⟨sched, _, by rw [e0]; exact hs, two_right _ _⟩

end Ulz.Sbshare
