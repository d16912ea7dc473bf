import Verif.Spec.Mapptr
import Verif.Proofs.Held
import Verif.Proofs.Ibmap
import Verif.Proofs.Hbmap
/-! Proofs about kept pointers to the values of maps and the items of tgilists. -/
namespace Ulz.Mapptr
open Ulz.Mapptr.Spec
open Ulz.Tglist (TG TGI look IRep)
open Ulz.Bmap (BM Cfg)
open Ulz.Ibmap (BMI)
open Ulz.Held (Ptr)
open Ulz.Frame (bind_ok)
open Ulz.Cost (TgCapa tg_step_capa tg_set_capa)
open Ulz.Sblist (mul_lt_of)

/-! ### Growth of the array of values -/

/-- A call keeps the capacity, or doubles that of a full list (4 if it has none). -/
def Grow (l l' : TG) : Prop :=
  l'.capa = l.capa ∨ (l.count = l.capa ∧ l'.capa = (if l.capa = 0 then 4 else szt (l.capa * 2)))

theorem TgCapa.grow {l l' : TG} (h : TgCapa l l') : Grow l l' := h.imp id fun h => ⟨h.1, h.2.1⟩

theorem add_grow {isz a} {l l' : TG} {x r} (h : Tglist.add isz a l x = .ok (l', r)) : Grow l l' :=
  TgCapa.grow (tg_step_capa (op := .add x a) (by simp only [Tglist.step]; rw [h]; rfl))

theorem iset_grow {w isz} {l l' : TGI} {x pos r} (h : Tglist.iset w isz l x pos = .ok (l', r)) : l'.items.capa = l.items.capa := by
  unfold Tglist.iset at h
  obtain ⟨i, _, h⟩ := bind_ok.1 h
  obtain ⟨⟨t, r'⟩, h1, h⟩ := bind_ok.1 h
  cases h
  exact (tg_set_capa h1).1

theorem iinsert_grow {w isz a1 a2} {l l' : TGI} {x pos r} (h : Tglist.iinsert w isz a1 a2 l x pos = .ok (l', r)) : Grow l.items l'.items := by
  unfold Tglist.iinsert at h
  obtain ⟨⟨t, ok⟩, h1, h⟩ := bind_ok.1 h
  have := add_grow h1
  simp only at h
  split at h
  · cases h; exact this
  · obtain ⟨⟨ix, ok⟩, _, h⟩ := bind_ok.1 h
    simp only at h
    split at h <;> (cases h; exact this)

theorem iadd_grow {w isz a1 a2} {l l' : TGI} {x r} (h : Tglist.iadd w isz a1 a2 l x = .ok (l', r)) : Grow l.items l'.items := by
  unfold Tglist.iadd at h
  obtain ⟨⟨ix, ok⟩, _, h⟩ := bind_ok.1 h
  simp only at h
  split at h
  · cases h; exact .inl rfl
  · obtain ⟨⟨t, ok⟩, h1, h⟩ := bind_ok.1 h
    have := add_grow h1
    simp only at h
    split at h
    · cases h; exact this
    · obtain ⟨ix, _, h⟩ := bind_ok.1 h
      cases h; exact this

def isStore : Tglist.IOp → Bool
  | .add .. | .insert .. => true
  | _ => false

theorem istep_grow {w isz} {l l' : TGI} {op r} (h : Tglist.istep w isz l op = .ok (l', r)) :
    l'.items.capa = l.items.capa ∨ (isStore op = true ∧ Grow l.items l'.items) := by
  cases op with
  | add x a1 a2 =>
    obtain ⟨⟨t, r'⟩, h1, h⟩ := bind_ok.1 h
    cases h
    exact .inr ⟨rfl, iadd_grow h1⟩
  | set x pos =>
    obtain ⟨⟨t, r'⟩, h1, h⟩ := bind_ok.1 h
    cases h
    exact .inl (iset_grow h1)
  | get i =>
    obtain ⟨t, h1, h⟩ := bind_ok.1 h
    cases h
    exact .inl rfl
  | insert x pos a1 a2 =>
    obtain ⟨⟨t, r'⟩, h1, h⟩ := bind_ok.1 h
    cases h
    exact .inr ⟨rfl, iinsert_grow h1⟩
  | delete i =>
    obtain ⟨t, h1, h⟩ := bind_ok.1 h
    cases h
    unfold Tglist.idelete at h1
    obtain ⟨ix, _, h1⟩ := bind_ok.1 h1
    have hz : l' = { l with index := ix } := (Except.ok.inj h1).symm
    rw [hz]; exact .inl rfl
  | getsize => cases h; exact .inl rfl

def isInsert : Ibmap.Op → Bool
  | .insert .. => true
  | _ => false

theorem xstep_grow {c : Cfg} {b b' : BMI} {op r} (h : Ibmap.step c b op = .ok (b', r)) :
    b'.values.items.capa = b.values.items.capa ∨ (isInsert op = true ∧ Grow b.values.items b'.values.items) := by
  cases op with
  | insert k v a1 a2 a3 =>
    obtain ⟨⟨b1, r1⟩, h1, h⟩ := bind_ok.1 h
    cases h
    unfold Ibmap.insert at h1
    obtain ⟨o, _, h1⟩ := bind_ok.1 h1
    cases o with
    | none =>
      obtain ⟨⟨b2, r2, ss⟩, h2, h1⟩ := bind_ok.1 h1
      cases h1
      unfold Ibmap.insert_nocheck at h2
      obtain ⟨⟨ks, p⟩, _, h2⟩ := bind_ok.1 h2
      cases p with
      | none => cases h2; exact .inl rfl
      | some p =>
        obtain ⟨⟨vs, ok⟩, h3, h2⟩ := bind_ok.1 h2
        have := iinsert_grow h3
        simp only at h2
        split at h2
        · cases h2; exact .inr ⟨rfl, this⟩
        · obtain ⟨ks', _, h2⟩ := bind_ok.1 h2
          cases h2; exact .inr ⟨rfl, this⟩
    | some i =>
      obtain ⟨⟨vs, r2⟩, h2, h1⟩ := bind_ok.1 h1
      cases h1
      exact .inl (iset_grow h2)
  | get k =>
    obtain ⟨t, h1, h⟩ := bind_ok.1 h
    cases h
    exact .inl rfl
  | contains k =>
    obtain ⟨t, h1, h⟩ := bind_ok.1 h
    cases h
    exact .inl rfl
  | del k =>
    obtain ⟨o, _, h⟩ := bind_ok.1 h
    cases o with
    | none => cases h; exact .inl rfl
    | some i =>
      obtain ⟨b1, h1, h⟩ := bind_ok.1 h
      cases h
      unfold Ibmap.delete at h1
      obtain ⟨ks, _, h1⟩ := bind_ok.1 h1
      obtain ⟨vs, h2, h1⟩ := bind_ok.1 h1
      unfold Tglist.idelete at h2
      obtain ⟨ix, _, h2⟩ := bind_ok.1 h2
      have hz : vs = { b.values with index := ix } := (Except.ok.inj h2).symm
      subst hz
      have hz : b' = _ := (Except.ok.inj h1).symm
      rw [hz]; exact .inl rfl

theorem grow_lt {isz : Nat} {l l' : TG} (h : Grow l l') (hp : 0 < isz) (hs : (2 * l.count + 4) * isz < 2^64) :
    l'.capa = l.capa ∨ (l.count = l.capa ∧ l.capa < l'.capa) := by
  rcases h with h | ⟨h1, h2⟩
  · exact .inl h
  · refine .inr ⟨h1, ?_⟩
    have : 2 * l.count + 4 < 2^64 := by
      have := mul_lt_of hs (Nat.le_refl _)
      have h3 := Nat.le_mul_of_pos_right (2 * l.count + 4) hp
      omega
    rw [h2]
    split
    · omega
    · rw [szt_of_lt (by omega)]; omega

/-! ### tgilist -/

/-- The item is in slot `q` of the array of values. -/
def In (x : Item) (q : Nat) (idxs : List Nat) (vals : List (List Byte)) : Prop :=
  vals[q]? = some x.val ∧ match x.pos with | some i => idxs[i]? = some q | none => q ∉ idxs

theorem istep_item {w isz : Nat} {l : TGI} {idxs vals} (h : IRep w isz l idxs vals) (hw : (2 * vals.length + 4) * w < 2^64)
    (hic : l.index.count ≤ vals.length) (hs : (2 * vals.length + 4) * isz < 2^64) (hlt : vals.length < 256^w) (op : Tglist.IOp)
    (hop : Tglist.Spec.IOpOk isz l.index.count op) :
    ∃ l' r idxs' vals', Tglist.istep w isz l op = .ok (l', r) ∧ Tglist.Spec.IStep (look vals idxs) op (look vals' idxs') r ∧
      IRep w isz l' idxs' vals' ∧ vals'.length ≤ vals.length + 1 ∧ (isStore op = false → vals'.length = vals.length) ∧
      l'.index.count ≤ vals'.length ∧ ∀ x q, In x q idxs vals → In (x.after op r) q idxs' vals' := by
  have hcc : l.index.count = idxs.length := by have := h.index.count; simpa using this
  have hlk : (look vals idxs).length = idxs.length := by simp [look]
  have hw0 : l.index.count * w < 2^64 := mul_lt_of hw (by omega)
  have hs0 : l.items.count * isz < 2^64 := mul_lt_of hs (by rw [h.items.count]; omega)
  have hcnt : ∀ {l' idxs' vals'}, IRep w isz l' idxs' vals' → l'.index.count = idxs'.length := by
    intro l' idxs' vals' h'; have := h'.index.count; simpa using this
  have hfresh : vals.length ∉ idxs := fun hm => by have := h.lt _ hm; omega
  cases op with
  | add x a1 a2 =>
    rcases Tglist.iadd_spec h hw hic hs hlt a1 a2 x hop with ⟨l', h1, h2, h3⟩ | ⟨l', h1, h2, h3⟩
    · refine ⟨l', _, _, _, by simp only [Tglist.istep, h1]; rfl, by rw [h3]; exact .add, h2, by simp, by intro e; simp [isStore] at e, ?_, ?_⟩
      · rw [hcnt h2]; simp; omega
      · rintro ⟨pos, v⟩ q ⟨b1, b2⟩
        have hq : q < vals.length := (List.getElem?_eq_some_iff.1 b1).1
        cases pos with
        | none =>
          refine ⟨by simp only [Item.after]; rw [List.getElem?_append_left hq]; exact b1, ?_⟩
          simp only [Item.after]
          simp only [List.mem_append, List.mem_singleton, not_or]
          exact ⟨b2, by omega⟩
        | some i =>
          have b2 : idxs[i]? = some q := b2
          refine ⟨by simp only [Item.after]; rw [List.getElem?_append_left hq]; exact b1, ?_⟩
          simp only [Item.after]
          rw [List.getElem?_append_left (List.getElem?_eq_some_iff.1 b2).1]; exact b2
    · refine ⟨l', _, _, _, by simp only [Tglist.istep, h2]; rfl, .addFail h1, h3, by omega, by intro e; rfl, by rw [hcnt h3]; omega, ?_⟩
      rintro ⟨pos, v⟩ q hb
      cases pos <;> exact hb
  | set x pos =>
    have hp : pos < idxs.length := by rw [← hcc]; exact hop.2
    obtain ⟨l', s1, s2, s3⟩ := Ibmap.iset_spec h hw0 hs0 hp x hop.1
    refine ⟨l', .int 1, idxs, vals.set idxs[pos] x, by simp only [Tglist.istep, s1]; rfl, by rw [s3]; exact .set (by omega), s2, by simp,
      by intro e; simp, by rw [hcnt s2]; simp; omega, ?_⟩
    rintro ⟨ps, v⟩ q ⟨b1, b2⟩
    have hq : q < vals.length := (List.getElem?_eq_some_iff.1 b1).1
    cases ps with
    | none =>
      have hne : idxs[pos] ≠ q := fun e => b2 (e ▸ List.getElem_mem hp)
      exact ⟨by simp only [Item.after]; rw [List.getElem?_set_ne hne]; exact b1, b2⟩
    | some i =>
      have b2 : idxs[i]? = some q := b2
      obtain ⟨hi, b3⟩ := List.getElem?_eq_some_iff.1 b2
      simp only [Item.after]
      split
      · rename_i e
        subst e
        refine ⟨?_, b2⟩
        show (vals.set idxs[pos] x)[q]? = some x
        rw [← b3, List.getElem?_set_self (by rw [b3]; exact hq)]
      · rename_i e
        refine ⟨?_, b2⟩
        show (vals.set idxs[pos] x)[q]? = some v
        rw [List.getElem?_set_ne (by rw [← b3]; exact fun hh => e ((List.getElem_inj h.nodup).1 hh))]
        exact b1
  | get i =>
    have hp : i < idxs.length := by rw [← hcc]; exact hop
    refine ⟨l, _, idxs, vals, ?_, .get (by omega), h, by omega, by intro e; rfl, hic, ?_⟩
    · simp only [Tglist.istep, Tglist.iget, Tglist.iidx_spec h hw0 hp, ok_bind, Tglist.get_spec h.items hs0 (h.lt _ (List.getElem_mem hp))]
      simp [look, List.getD_eq_getElem?_getD, h.lt _ (List.getElem_mem hp), pure_eq_ok]
    · rintro ⟨pos, v⟩ q hb
      cases pos <;> exact hb
  | insert x pos a1 a2 =>
    have hp : pos ≤ idxs.length := by rw [← hcc]; exact hop.2
    rcases Tglist.iinsert_spec h hw hic hs hlt a1 a2 x hop.1 hp with ⟨l', h1, h2, h3⟩ | ⟨l', h1, h2, h3⟩
    · refine ⟨l', _, _, _, by simp only [Tglist.istep, h1]; rfl, by rw [h3]; exact .insert (by omega), h2, by simp,
        by intro e; simp [isStore] at e, ?_, ?_⟩
      · rw [hcnt h2]; simp; omega
      · rintro ⟨ps, v⟩ q ⟨b1, b2⟩
        have hq : q < vals.length := (List.getElem?_eq_some_iff.1 b1).1
        cases ps with
        | none =>
          refine ⟨by simp only [Item.after]; rw [List.getElem?_append_left hq]; exact b1, ?_⟩
          simp only [Item.after]
          have b2 : q ∉ idxs := b2
          simp only [List.mem_append, List.mem_cons, not_or]
          exact ⟨fun e => b2 (List.mem_of_mem_take e), by omega, fun e => b2 (List.mem_of_mem_drop e)⟩
        | some i =>
          have b2 : idxs[i]? = some q := b2
          have hi := (List.getElem?_eq_some_iff.1 b2).1
          refine ⟨by simp only [Item.after]; rw [List.getElem?_append_left hq]; exact b1, ?_⟩
          simp only [Item.after]
          split
          · rw [List.getElem?_append_right (by rw [List.length_take]; omega), List.length_take, Nat.min_eq_left hp,
              show i + 1 - pos = (i - pos) + 1 by omega, List.getElem?_cons_succ, List.getElem?_drop, show pos + (i - pos) = i by omega]
            exact b2
          · rw [List.getElem?_append_left (by rw [List.length_take]; omega), List.getElem?_take_of_lt (by omega)]
            exact b2
    · refine ⟨l', _, _, _, by simp only [Tglist.istep, h2]; rfl, .insertFail (by omega) h1, h3, by omega, by intro e; rfl,
        by rw [hcnt h3]; omega, ?_⟩
      rintro ⟨ps, v⟩ q hb
      cases ps <;> exact hb
  | delete i =>
    have hp : i < idxs.length := by rw [← hcc]; exact hop
    obtain ⟨ix, d1, d2, _, d4⟩ := Tglist.delete_spec h.index hw0 (i := i) (by simpa using hp)
    refine ⟨{ l with index := ix }, .unit, idxs.eraseIdx i, vals, by simp only [Tglist.istep, Tglist.idelete, d1]; rfl, ?_,
      ⟨by rw [Tglist.map_eraseIdx']; exact d2, h.items, h.nodup.eraseIdx i,
        fun j hj => h.lt j (List.mem_of_mem_eraseIdx hj), h.fit⟩, by omega, by intro e; rfl, ?_, ?_⟩
    · have : look vals (idxs.eraseIdx i) = (look vals idxs).eraseIdx i := Tglist.map_eraseIdx' _ _ _
      rw [this]
      exact .delete (by omega)
    · show ix.count ≤ _
      omega
    · rintro ⟨ps, v⟩ q ⟨b1, b2⟩
      cases ps with
      | none => exact ⟨b1, fun e => b2 (List.mem_of_mem_eraseIdx e)⟩
      | some j =>
        have b2 : idxs[j]? = some q := b2
        obtain ⟨hj, b3⟩ := List.getElem?_eq_some_iff.1 b2
        refine ⟨b1, ?_⟩
        simp only [Item.after]
        by_cases e : i = j
        · subst e
          simp only [if_true]
          intro hm
          obtain ⟨m, hm1, hm2⟩ := List.getElem_of_mem hm
          rw [List.getElem_eraseIdx] at hm2
          rw [List.length_eraseIdx, if_pos hj] at hm1
          split at hm2
          · have := (List.getElem_inj h.nodup).1 (hm2.trans b3.symm); omega
          · have := (List.getElem_inj h.nodup).1 (hm2.trans b3.symm); omega
        · rw [if_neg e]
          simp only
          rw [List.getElem?_eraseIdx]
          by_cases hl : i < j
          · rw [if_pos hl, if_neg (by omega), show j - 1 + 1 = j by omega]; exact b2
          · rw [if_neg hl, if_pos (by omega)]; exact b2
  | getsize =>
    refine ⟨l, _, idxs, vals, rfl, ?_, h, by omega, by intro e; rfl, hic, ?_⟩
    · rw [hcc, ← hlk]; exact .getsize
    · rintro ⟨ps, v⟩ q hb
      cases ps <;> exact hb

theorem irun_item {w isz : Nat} : ∀ (ops : List Tglist.IOp) (l : TGI) (idxs : List Nat) (vals : List (List Byte)) (n m q : Nat) (x : Item),
    IRep w isz l idxs vals → l.index.count ≤ vals.length →
    (2 * (vals.length + ops.length) + 4) * w < 2^64 → (2 * (vals.length + ops.length) + 4) * isz < 2^64 →
    vals.length + ops.length ≤ 256^w → Tglist.Spec.IValid w isz l ops → m ≤ n → In x q idxs vals →
    ∃ s rs idxs' vals', irun w isz ⟨l, n⟩ ops = .ok (s, rs) ∧ Tglist.irun w isz l ops = .ok (s.l, rs) ∧
      Tglist.Spec.ISteps (look vals idxs) ops (look vals' idxs') rs ∧
      IRep w isz s.l idxs' vals' ∧ vals'.length ≤ vals.length + ops.length ∧ s.l.index.count ≤ vals'.length ∧
      In (x.follow ops rs) q idxs' vals' ∧ n ≤ s.buf ∧ l.items.capa ≤ s.l.items.capa ∧ (s.buf = n ↔ s.l.items.capa = l.items.capa) ∧
      (l.items.count + stores ops ≤ l.items.capa → s.l.items.capa = l.items.capa)
  | [], l, idxs, vals, n, m, q, x, h, hic, _, _, _, _, _, hx =>
    ⟨⟨l, n⟩, [], idxs, vals, rfl, rfl, .nil, h, by simp, hic, hx, Nat.le_refl _, Nat.le_refl _, by simp, fun _ => rfl⟩
  | op :: ops, l, idxs, vals, n, m, q, x, h, hic, hw, hs, hf, hv, hm, hx => by
    simp only [List.length_cons] at hw hs hf
    have hcount := h.items.count
    obtain ⟨l1, r, i1, v1, h1, h2, h3, h4, h4', h5, h6⟩ := istep_item h (mul_lt_of hw (by omega)) hic (mul_lt_of hs (by omega))
      (by omega) op (hv [] op ops rfl l [] rfl)
    have hcount1 := h3.items.count
    have hg : l1.items.capa = l.items.capa ∨ (isStore op = true ∧ l.items.count = l.items.capa ∧ l.items.capa < l1.items.capa) := by
      rcases istep_grow h1 with g | ⟨g1, g2⟩
      · exact .inl g
      · rcases grow_lt g2 h.items.pos (mul_lt_of hs (by omega)) with g | ⟨g, g'⟩
        · exact .inl g
        · exact .inr ⟨g1, g, g'⟩
    obtain ⟨s, rs, i2, v2, r1, r1', r2, r3, r4, r5, r6, r7, r8, r9, r10⟩ := irun_item ops l1 i1 v1 (nextBuf l.items l1.items n) m q
      (x.after op r) h3 h5 (mul_lt_of hw (by omega)) (mul_lt_of hs (by omega)) (by omega) (by
        intro pre op' post he l' rs hr
        exact hv (op :: pre) op' post (by rw [he]; rfl) l' (r :: rs) (by
          simp only [Tglist.irun, h1, ok_bind, hr]; rfl)) (by unfold nextBuf; split <;> omega) (h6 x q hx)
    refine ⟨s, r :: rs, i2, v2, ?_, ?_, .cons h2 r2, r3, by simp; omega, r5, r6, ?_, ?_, ?_, ?_⟩
    · simp only [irun, istep, h1, ok_bindE, pure_eq_ok]; rw [r1]; rfl
    · simp only [Tglist.irun, h1, ok_bind, r1']; rfl
    · unfold nextBuf at r7; split at r7 <;> omega
    · rcases hg with g | ⟨_, _, g⟩ <;> omega
    · rcases hg with g | ⟨_, _, g⟩
      · unfold nextBuf at r9
        rw [if_pos g] at r9
        rw [r9, g]
      · unfold nextBuf at r7
        rw [if_neg (by omega)] at r7
        constructor <;> intro e <;> omega
    · intro hroom
      have hst : stores (op :: ops) = stores ops + (if isStore op then 1 else 0) := by
        unfold stores
        rw [List.countP_cons]
        congr 1
      rw [hst] at hroom
      rcases hg with g | ⟨g0, g1, g⟩
      · rw [r10 ?_, g]
        rw [g]
        by_cases e : isStore op = true
        · rw [if_pos e] at hroom; omega
        · rw [if_neg e] at hroom; have := h4' (by simpa using e); omega
      · rw [if_pos g0] at hroom; omega

/-! ### bmap with `BMAP_USE_TGILIST` -/

open Ulz.Bmap.Spec (lookup upd rem CfgOk)
open Ulz.Ibmap.Spec (View OpOk Step Steps)

theorem xset_view {c : Cfg} (hc : CfgOk c) {b : BMI} {S idxs vals} (h : View c b S idxs vals) (hv : vals.length * c.vsz < 2^64) {i : Nat}
    (hi : i < S.length) (hp : i < idxs.length) (v : List Byte) (hvl : v.length = c.vsz) :
    ∃ vs, Tglist.iset Ibmap.W c.vsz b.values v i = .ok (vs, 1) ∧
      View c ⟨b.keys, vs⟩ (S.set i (S[i].1, v)) idxs (vals.set idxs[i] v) ∧
      lookup c.cmp (S.set i (S[i].1, v)) = upd c.cmp (lookup c.cmp S) S[i].1 v := by
  have hf := h.fit
  have hle := h.le
  obtain ⟨vs, s1, s2, s3⟩ := Ibmap.iset_spec h.irep (by rw [h.icount, show Ibmap.W = 4 from rfl]; omega)
    (by rw [h.items.count]; exact hv) (pos := i) hp v hvl
  have fake := h.bmap
  obtain ⟨fvs, f1, f2, f3⟩ := Bmap.set_view hc fake (by exact mul_lt_of hv hle) hi v hvl
  refine ⟨vs, s1, Ibmap.Spec.View.of f2.keys s2 ?_ f2.sorted, f3⟩
  rw [s3, Bmap.map_set, h.slots]
  rfl

/-- The entry is in slot `q` of the array of values. -/
def At (c : Cfg) (k : List Byte) (x : Entry) (q : Nat) (S : List (List Byte × List Byte)) (idxs : List Nat) (vals : List (List Byte)) : Prop :=
  vals[q]? = some x.val ∧
    if x.here then ∃ j, ∃ hj : j < S.length, idxs[j]? = some q ∧ c.cmp k S[j].1 = 0
    else q ∉ idxs

/-- Two entries whose keys equal `k` are the same. -/
theorem same_key {c : Cfg} (hc : CfgOk c) {S : List (List Byte × List Byte)} (hs : S.Pairwise fun x y => c.cmp x.1 y.1 < 0) {k : List Byte}
    {i j : Nat} (hi : i < S.length) (hj : j < S.length) (h1 : c.cmp k S[i].1 = 0) (h2 : c.cmp k S[j].1 = 0) : i = j := by
  have h12 : c.cmp S[i].1 S[j].1 = 0 := Bmap.cmp_eq_trans hc.cmp (Bmap.cmp_symm hc.cmp h1) h2
  have h21 : c.cmp S[j].1 S[i].1 = 0 := Bmap.cmp_symm hc.cmp h12
  rcases Nat.lt_trichotomy i j with h | h | h
  · have := List.pairwise_iff_getElem.1 hs i j hi hj h; omega
  · exact h
  · have := List.pairwise_iff_getElem.1 hs j i hj hi h; omega

theorem xstep_entry {c : Cfg} (hc : CfgOk c) {b : BMI} {S idxs vals} (h : View c b S idxs vals) (hk : (2 * S.length + 4) * c.ksz < 2^64)
    (hv : (2 * vals.length + 4) * c.vsz < 2^64) (hlt : vals.length < 2^32) (op : Ibmap.Op) (hop : OpOk c op) (k : List Byte) :
    ∃ b' r S' idxs' vals', Ibmap.step c b op = .ok (b', r) ∧ Step c.cmp (lookup c.cmp S) op (lookup c.cmp S') r ∧
      View c b' S' idxs' vals' ∧ S'.length ≤ S.length + 1 ∧ vals'.length ≤ vals.length + 1 ∧
      (isInsert op = false → vals'.length = vals.length) ∧
      ∀ x q, At c k x q S idxs vals → At c k (x.after c.cmp k op) q S' idxs' vals' := by
  have hk0 : S.length * c.ksz < 2^64 := mul_lt_of hk (by omega)
  have hk1 : b.keys.count * c.ksz < 2^64 := by rw [h.kcount]; exact hk0
  have hv0 : vals.length * c.vsz < 2^64 := mul_lt_of hv (by omega)
  have hlen := h.len
  have hsym : ∀ {a d : List Byte}, c.cmp a d = 0 → c.cmp d a = 0 := fun e => Bmap.cmp_symm hc.cmp e
  cases op with
  | insert k' v a1 a2 a3 =>
    rcases Ibmap.find_spec hc h (mul_lt_of hk (by rw [h.kcount]; omega)) k' with ⟨i, hi, f1, f2, f3⟩ | ⟨f1, f2, f3⟩
    · have hp : i < idxs.length := by omega
      obtain ⟨vs, s1, s2, s3⟩ := xset_view hc h hv0 hi hp v hop.2
      refine ⟨⟨b.keys, vs⟩, _, _, _, _, by simp only [Ibmap.step, Ibmap.insert, f1, ok_bind, s1]; rfl, ?_, s2, by simp, by simp, ?_, ?_⟩
      · rw [s3, ← Bmap.upd_congr hc.cmp f2]; exact .insert
      · intro e; simp
      · rintro ⟨here, w⟩ q ⟨b1, b2⟩
        have hq : q < vals.length := (List.getElem?_eq_some_iff.1 b1).1
        cases here with
        | false =>
          simp only [Bool.false_eq_true, if_false] at b2
          have hne : idxs[i] ≠ q := fun e => b2 (e ▸ List.getElem_mem hp)
          simp only [Entry.after, Bool.false_eq_true, false_and, if_false]
          exact ⟨by rw [List.getElem?_set_ne hne]; exact b1, by simpa using b2⟩
        | true =>
          simp only [if_true] at b2
          obtain ⟨j, hj, b3, b4⟩ := b2
          obtain ⟨hj', b3'⟩ := List.getElem?_eq_some_iff.1 b3
          have hkeep : ∃ j', ∃ hj' : j' < (S.set i (S[i].1, v)).length, idxs[j']? = some q ∧ c.cmp k (S.set i (S[i].1, v))[j'].1 = 0 := by
            refine ⟨j, by simpa using hj, b3, ?_⟩
            rw [List.getElem_set]
            split
            · rename_i e; subst e; exact b4
            · exact b4
          simp only [Entry.after, true_and]
          by_cases e : c.cmp k' k = 0
          · rw [if_pos e]
            have hij : i = j := same_key hc h.sorted hi hj (Bmap.cmp_eq_trans hc.cmp (hsym e) f2) b4
            subst hij
            refine ⟨?_, by simpa using hkeep⟩
            show (vals.set idxs[i] v)[q]? = some v
            rw [← b3', List.getElem?_set_self (by rw [b3']; exact hq)]
          · rw [if_neg e]
            refine ⟨?_, by simpa using hkeep⟩
            have hne : idxs[i] ≠ q := by
              rw [← b3']
              intro hh
              have := (List.getElem_inj h.nodup).1 hh
              subst this
              exact e (Bmap.cmp_eq_trans hc.cmp f2 (hsym b4))
            show (vals.set idxs[i] v)[q]? = some w
            rw [List.getElem?_set_ne hne]; exact b1
    · have hn := Ibmap.nocheck_spec hc h hk hv hlt a1 a2 a3 k' v hop.1 hop.2 f2
      have hstay : ∀ x q, At c k x q S idxs vals → At c k (x.after c.cmp k (.insert k' v a1 a2 a3)) q S idxs vals := by
        rintro ⟨here, w⟩ q hA
        simp only [Entry.after]
        rw [if_neg]
        · exact hA
        · rintro ⟨e1, e2⟩
          obtain ⟨_, b2⟩ := hA
          subst e1
          simp only [if_true] at b2
          obtain ⟨j, hj, _, b4⟩ := b2
          exact f2 _ (List.getElem_mem hj) (Bmap.cmp_eq_trans hc.cmp e2 b4)
      split at hn
      · rename_i hh
        exact ⟨b, _, S, idxs, vals, by simp only [Ibmap.step, Ibmap.insert, f1, ok_bind, hn]; rfl, .insertFail f3 (.inl hh.1), h, by omega,
          by omega, fun _ => rfl, hstay⟩
      · split at hn
        · rename_i hh
          obtain ⟨b', p, r1, r2, r3⟩ := hn
          exact ⟨b', _, S, idxs, vals, by simp only [Ibmap.step, Ibmap.insert, f1, ok_bind, r2]; rfl,
            .insertFail f3 (hh.elim (fun h => .inr (.inr h.1)) (fun h => .inr (.inl h.1))), r3, by omega, by omega, fun _ => rfl, hstay⟩
        · obtain ⟨b', p, r1, r2, r3, r4⟩ := hn
          refine ⟨b', _, _, _, _, by simp only [Ibmap.step, Ibmap.insert, f1, ok_bind, r2]; rfl, by rw [r4]; exact .insert, r3,
            by simp; omega, by simp, by intro e; simp [isInsert] at e, ?_⟩
          intro x q hA
          have hA := hstay x q hA
          revert hA
          generalize x.after c.cmp k (.insert k' v a1 a2 a3) = y
          obtain ⟨here, w⟩ := y
          rintro ⟨b1, b2⟩
          have hq : q < vals.length := (List.getElem?_eq_some_iff.1 b1).1
          refine ⟨by rw [List.getElem?_append_left hq]; exact b1, ?_⟩
          cases here with
          | false =>
            simp only [Bool.false_eq_true, if_false] at b2 ⊢
            simp only [List.mem_append, List.mem_cons, not_or]
            exact ⟨fun e => b2 (List.mem_of_mem_take e), by omega, fun e => b2 (List.mem_of_mem_drop e)⟩
          | true =>
            simp only [if_true] at b2 ⊢
            obtain ⟨j, hj, b3, b4⟩ := b2
            by_cases hpj : p ≤ j
            · refine ⟨j + 1, by simp; omega, ?_, ?_⟩
              · rw [List.getElem?_append_right (by rw [List.length_take]; omega), List.length_take, Nat.min_eq_left (by omega),
                  show j + 1 - p = (j - p) + 1 by omega, List.getElem?_cons_succ, List.getElem?_drop, show p + (j - p) = j by omega]
                exact b3
              · have : (S.take p ++ (k', v) :: S.drop p)[j + 1]? = some S[j] := by
                  rw [List.getElem?_append_right (by rw [List.length_take]; omega), List.length_take, Nat.min_eq_left (by omega),
                    show j + 1 - p = (j - p) + 1 by omega, List.getElem?_cons_succ, List.getElem?_drop, show p + (j - p) = j by omega]
                  exact List.getElem?_eq_getElem hj
                rw [(List.getElem?_eq_some_iff.1 this).2]; exact b4
            · refine ⟨j, by simp; omega, ?_, ?_⟩
              · rw [List.getElem?_append_left (by rw [List.length_take]; omega), List.getElem?_take_of_lt (by omega)]
                exact b3
              · have : (S.take p ++ (k', v) :: S.drop p)[j]? = some S[j] := by
                  rw [List.getElem?_append_left (by rw [List.length_take]; omega), List.getElem?_take_of_lt (by omega)]
                  exact List.getElem?_eq_getElem hj
                rw [(List.getElem?_eq_some_iff.1 this).2]; exact b4
  | get k' =>
    exact ⟨b, _, S, _, _, by simp only [Ibmap.step, Ibmap.get_spec hc h hk0 hv0]; rfl, .get, h, by omega, by omega, fun _ => rfl,
      fun x q hA => hA⟩
  | contains k' =>
    refine ⟨b, _, S, _, _, ?_, .contains, h, by omega, by omega, fun _ => rfl, fun x q hA => hA⟩
    rcases Ibmap.find_spec hc h hk1 k' with ⟨i, hi, f1, f2, f3⟩ | ⟨f1, f2, f3⟩ <;> (simp only [Ibmap.step, f1, f3]; rfl)
  | del k' =>
    rcases Ibmap.find_spec hc h hk1 k' with ⟨i, hi, f1, f2, f3⟩ | ⟨f1, f2, f3⟩
    · obtain ⟨b', d1, d2, d3⟩ := Ibmap.delete_view hc h hk0 hi
      have hp : i < idxs.length := by omega
      refine ⟨b', .bool true, S.eraseIdx i, _, _, by simp only [Ibmap.step, f1, ok_bind, d1]; rfl, ?_, d2, ?_, by omega, fun _ => rfl, ?_⟩
      · have := Step.del (cmp := c.cmp) (M := lookup c.cmp S) (k := k')
        rw [f3] at this
        rw [d3, ← Bmap.rem_congr hc.cmp f2]
        exact this
      · rw [List.length_eraseIdx]; split <;> omega
      · rintro ⟨here, w⟩ q ⟨b1, b2⟩
        simp only [Entry.after]
        have hgone : q ∉ idxs → q ∉ idxs.eraseIdx i := fun e hm => e (List.mem_of_mem_eraseIdx hm)
        cases here with
        | false =>
          simp only [Bool.false_eq_true, if_false] at b2
          split <;> exact ⟨b1, by simpa using hgone b2⟩
        | true =>
          simp only [if_true] at b2
          obtain ⟨j, hj, b3, b4⟩ := b2
          obtain ⟨hj', b3'⟩ := List.getElem?_eq_some_iff.1 b3
          by_cases e : c.cmp k' k = 0
          · rw [if_pos e]
            have hij : i = j := same_key hc h.sorted hi hj (Bmap.cmp_eq_trans hc.cmp (hsym e) f2) b4
            subst hij
            refine ⟨b1, ?_⟩
            simp only [Bool.false_eq_true, if_false]
            intro hm
            obtain ⟨m, hm1, hm2⟩ := List.getElem_of_mem hm
            rw [List.getElem_eraseIdx] at hm2
            rw [List.length_eraseIdx, if_pos hj'] at hm1
            split at hm2
            · have := (List.getElem_inj h.nodup).1 (hm2.trans b3'.symm); omega
            · have := (List.getElem_inj h.nodup).1 (hm2.trans b3'.symm); omega
          · rw [if_neg e]
            refine ⟨b1, ?_⟩
            simp only [if_true]
            have hne : i ≠ j := by
              rintro rfl
              exact e (Bmap.cmp_eq_trans hc.cmp f2 (hsym b4))
            by_cases hl : i < j
            · refine ⟨j - 1, by rw [List.length_eraseIdx, if_pos hi]; omega, ?_, ?_⟩
              · rw [List.getElem?_eraseIdx, if_neg (by omega), show j - 1 + 1 = j by omega]; exact b3
              · have : (S.eraseIdx i)[j - 1]? = some S[j] := by
                  rw [List.getElem?_eraseIdx, if_neg (by omega), show j - 1 + 1 = j by omega]; exact List.getElem?_eq_getElem hj
                rw [(List.getElem?_eq_some_iff.1 this).2]; exact b4
            · refine ⟨j, by rw [List.length_eraseIdx, if_pos hi]; omega, ?_, ?_⟩
              · rw [List.getElem?_eraseIdx, if_pos (by omega)]; exact b3
              · have : (S.eraseIdx i)[j]? = some S[j] := by
                  rw [List.getElem?_eraseIdx, if_pos (by omega)]; exact List.getElem?_eq_getElem hj
                rw [(List.getElem?_eq_some_iff.1 this).2]; exact b4
    · refine ⟨b, .bool false, S, _, _, by simp only [Ibmap.step, f1]; rfl, ?_, h, by omega, by omega, fun _ => rfl, ?_⟩
      · have := Step.del (cmp := c.cmp) (M := lookup c.cmp S) (k := k')
        rw [f3] at this
        have e : rem c.cmp (lookup c.cmp S) k' = lookup c.cmp S := by
          funext x
          unfold rem
          split
          · rename_i hx; rw [Bmap.lookup_congr hc.cmp hx, f3]
          · rfl
        rw [e] at this
        exact this
      · rintro ⟨here, w⟩ q ⟨b1, b2⟩
        simp only [Entry.after]
        cases here with
        | false => split <;> exact ⟨b1, b2⟩
        | true =>
          rw [if_neg]
          · exact ⟨b1, b2⟩
          · intro e
            simp only [if_true] at b2
            obtain ⟨j, hj, _, b4⟩ := b2
            exact f2 _ (List.getElem_mem hj) (Bmap.cmp_eq_trans hc.cmp e b4)

theorem xrun_entry {c : Cfg} (hc : CfgOk c) (k : List Byte) : ∀ (ops : List Ibmap.Op) (b : BMI) (S : List (List Byte × List Byte))
    (idxs : List Nat) (vals : List (List Byte)) (n q : Nat) (x : Entry), View c b S idxs vals →
    (2 * (S.length + ops.length) + 4) * c.ksz < 2^64 → (2 * (vals.length + ops.length) + 4) * c.vsz < 2^64 →
    vals.length + ops.length ≤ 2^32 → (∀ op ∈ ops, OpOk c op) → At c k x q S idxs vals →
    ∃ s rs S' idxs' vals', xrun c ⟨b, n⟩ ops = .ok (s, rs) ∧ Ibmap.run c b ops = .ok (s.b, rs) ∧
      Steps c.cmp (lookup c.cmp S) ops (lookup c.cmp S') rs ∧
      View c s.b S' idxs' vals' ∧ S'.length ≤ S.length + ops.length ∧ vals'.length ≤ vals.length + ops.length ∧
      At c k (x.follow c.cmp k ops) q S' idxs' vals' ∧ n ≤ s.buf ∧ b.values.items.capa ≤ s.b.values.items.capa ∧
      (s.buf = n ↔ s.b.values.items.capa = b.values.items.capa) ∧
      (b.values.items.count + inserts ops ≤ b.values.items.capa → s.b.values.items.capa = b.values.items.capa)
  | [], b, S, idxs, vals, n, q, x, h, _, _, _, _, hx =>
    ⟨⟨b, n⟩, [], S, idxs, vals, rfl, rfl, .nil, h, by simp, by simp, hx, Nat.le_refl _, Nat.le_refl _, by simp, fun _ => rfl⟩
  | op :: ops, b, S, idxs, vals, n, q, x, h, hk, hv, hlt, hop, hx => by
    simp only [List.length_cons] at hk hv hlt
    have hcount := h.items.count
    obtain ⟨b1, r, S1, i1, v1, h1, h2, h3, h4, h5, h5', h6⟩ := xstep_entry hc h (mul_lt_of hk (by omega)) (mul_lt_of hv (by omega)) (by omega) op
      (hop op (by simp)) k
    have hcount1 := h3.items.count
    have hg : b1.values.items.capa = b.values.items.capa ∨
        (isInsert op = true ∧ b.values.items.count = b.values.items.capa ∧ b.values.items.capa < b1.values.items.capa) := by
      rcases xstep_grow h1 with g | ⟨g1, g2⟩
      · exact .inl g
      · rcases grow_lt g2 h.items.pos (mul_lt_of hv (by omega)) with g | ⟨g, g'⟩
        · exact .inl g
        · exact .inr ⟨g1, g, g'⟩
    obtain ⟨s, rs, S2, i2, v2, r1, r1', r2, r3, r4, r5, r6, r7, r8, r9, r10⟩ := xrun_entry hc k ops b1 S1 i1 v1
      (nextBuf b.values.items b1.values.items n) q (x.after c.cmp k op) h3 (mul_lt_of hk (by omega)) (mul_lt_of hv (by omega))
      (by omega) (fun o ho => hop o (by simp [ho])) (h6 x q hx)
    refine ⟨s, r :: rs, S2, i2, v2, ?_, ?_, .cons h2 r2, r3, by simp; omega, by simp; omega, r6, ?_, ?_, ?_, ?_⟩
    · simp only [xrun, xstep, h1, ok_bindE, pure_eq_ok]; rw [r1]; rfl
    · simp only [Ibmap.run, h1, ok_bind, r1']; rfl
    · unfold nextBuf at r7; split at r7 <;> omega
    · rcases hg with g | ⟨_, _, g⟩ <;> omega
    · rcases hg with g | ⟨_, _, g⟩
      · unfold nextBuf at r9
        rw [if_pos g] at r9
        rw [r9, g]
      · unfold nextBuf at r7
        rw [if_neg (by omega)] at r7
        constructor <;> intro e <;> omega
    · intro hroom
      have hst : inserts (op :: ops) = inserts ops + (if isInsert op then 1 else 0) := by
        unfold inserts
        rw [List.countP_cons]
        congr 1
      rw [hst] at hroom
      rcases hg with g | ⟨g0, g1, g⟩
      · rw [r10 ?_, g]
        rw [g]
        by_cases e : isInsert op = true
        · rw [if_pos e] at hroom; omega
        · rw [if_neg e] at hroom; have := h5' (by simpa using e); omega
      · rw [if_pos g0] at hroom; omega

/-! ### bmap -/

theorem step_grow {c : Cfg} {b b' : BM} {op r} (h : Bmap.step c b op = .ok (b', r)) : TgCapa b.values b'.values := by
  cases op with
  | insert k v a1 a2 =>
    obtain ⟨⟨b1, r1⟩, h1, h⟩ := bind_ok.1 h
    cases h
    unfold Bmap.insert at h1
    obtain ⟨o, _, h1⟩ := bind_ok.1 h1
    cases o with
    | none =>
      obtain ⟨⟨b2, r2, ss⟩, h2, h1⟩ := bind_ok.1 h1
      cases h1
      unfold Bmap.insert_nocheck at h2
      obtain ⟨⟨ks, p⟩, _, h2⟩ := bind_ok.1 h2
      cases p with
      | none => cases h2; exact .inl rfl
      | some p =>
        obtain ⟨⟨vs, ok⟩, h3, h2⟩ := bind_ok.1 h2
        have : TgCapa b.values vs := tg_step_capa (isz := c.vsz) (op := .insert v p a2) (r := .int ok) (by simp only [Tglist.step]; rw [h3]; rfl)
        simp only at h2
        split at h2
        · cases h2; exact this
        · obtain ⟨ks', _, h2⟩ := bind_ok.1 h2
          cases h2; exact this
    | some i =>
      obtain ⟨⟨vs, r2⟩, h2, h1⟩ := bind_ok.1 h1
      cases h1
      exact .inl (tg_set_capa h2).1
  | get k =>
    obtain ⟨t, h1, h⟩ := bind_ok.1 h
    cases h
    exact .inl rfl
  | contains k =>
    obtain ⟨t, h1, h⟩ := bind_ok.1 h
    cases h
    exact .inl rfl
  | del k =>
    obtain ⟨o, _, h⟩ := bind_ok.1 h
    cases o with
    | none => cases h; exact .inl rfl
    | some i =>
      obtain ⟨b1, h1, h⟩ := bind_ok.1 h
      cases h
      unfold Bmap.delete at h1
      obtain ⟨ks, _, h1⟩ := bind_ok.1 h1
      obtain ⟨vs, h2, h1⟩ := bind_ok.1 h1
      have hz : b' = _ := (Except.ok.inj h1).symm
      rw [hz]
      exact tg_step_capa (isz := c.vsz) (op := .delete i) (r := .unit) (by simp only [Tglist.step]; rw [h2]; rfl)

theorem peak_ge (c : Cfg) (b : BM) (ops : List Bmap.Op) : b.keys.count ≤ peak c b ops := by
  cases ops with
  | nil => exact Nat.le_refl _
  | cons o os => rw [peak]; omega

theorem run_values {c : Cfg} (hc : CfgOk c) : ∀ (ops : List Bmap.Op) (b : BM) (S : List (List Byte × List Byte)) (n : Nat),
    Bmap.Spec.View c b S → (2 * (S.length + ops.length) + 4) * c.ksz < 2^64 → (2 * (S.length + ops.length) + 4) * c.vsz < 2^64 →
    (∀ op ∈ ops, Bmap.Spec.OpOk c op) →
    ∃ s rs S', run c ⟨b, n⟩ ops = .ok (s, rs) ∧ Bmap.run c b ops = .ok (s.b, rs) ∧
      Bmap.Spec.Steps c.cmp (lookup c.cmp S) ops (lookup c.cmp S') rs ∧ Bmap.Spec.View c s.b S' ∧ S'.length ≤ S.length + ops.length ∧
      n ≤ s.buf ∧ (s.buf = n ↔ peak c b ops ≤ b.values.capa) ∧ (s.buf = n → s.b.values.capa = b.values.capa)
  | [], b, S, n, h, _, _, _ => by
    refine ⟨⟨b, n⟩, [], S, rfl, rfl, .nil, h, by simp, Nat.le_refl _, ?_, fun _ => rfl⟩
    have hcnt : b.values.count = b.keys.count := by rw [h.values.count, h.keys.count]; simp
    have := h.values.capa
    simp only [peak, true_iff]
    omega
  | op :: ops, b, S, n, h, hk, hv, hop => by
    simp only [List.length_cons] at hk hv
    have hcnt : b.values.count = b.keys.count := by rw [h.values.count, h.keys.count]; simp
    have hkc : b.keys.count = S.length := by rw [h.keys.count]; simp
    obtain ⟨b1, r, S1, h1, h2, h3, h4⟩ := Bmap.step_spec hc h (mul_lt_of hk (by omega)) (mul_lt_of hv (by omega)) op (hop op (by simp))
    have hcnt1 : b1.values.count = b1.keys.count := by rw [h3.values.count, h3.keys.count]; simp
    obtain ⟨s, rs, S2, r1, r1', r2, r3, r4, r5, r6, r7⟩ := run_values hc ops b1 S1 (nextBuf b.values b1.values n) h3 (mul_lt_of hk (by omega))
      (mul_lt_of hv (by omega)) (fun o ho => hop o (by simp [ho]))
    have hcap := h.values.capa
    have hpk := peak_ge c b1 ops
    refine ⟨s, r :: rs, S2, ?_, ?_, .cons h2 r2, r3, by simp; omega, ?_, ?_⟩
    · simp only [run, step, h1, ok_bindE, pure_eq_ok]; rw [r1]; rfl
    · simp only [Bmap.run, h1, ok_bind, r1']; rfl
    · unfold nextBuf at r5; split at r5 <;> omega
    · rw [peak, h1]
      simp only
      rcases step_grow h1 with g | ⟨g1, g2, g3⟩
      · unfold nextBuf at r6 r7
        rw [if_pos g] at r6 r7
        rw [r6, g]
        constructor
        · constructor <;> intro e <;> omega
        · intro e; exact (r7 (r6.2 (by omega))).trans g
      · rcases grow_lt (.inr ⟨g1, g2⟩) h.values.pos (mul_lt_of hv (by omega)) with g | ⟨_, g⟩
        · have := h3.values.capa; omega
        · unfold nextBuf at r5
          rw [if_neg (by omega)] at r5
          constructor
          · constructor <;> intro e <;> omega
          · intro e; omega

/-- The rank of an entry's key is the entry's index. -/
theorem rank_index {c : Cfg} (hc : CfgOk c) : ∀ {S : List (List Byte × List Byte)}, (S.Pairwise fun x y => c.cmp x.1 y.1 < 0) →
    ∀ {i : Nat} (hi : i < S.length) {k : List Byte}, c.cmp k S[i].1 = 0 → rank c.cmp S k = i
  | [], _, i, hi, _, _ => absurd hi (by simp)
  | e :: S, hs, i, hi, k, hk => by
    rw [List.pairwise_cons] at hs
    unfold rank
    rw [List.countP_cons]
    cases i with
    | zero =>
      have hk : c.cmp k e.1 = 0 := hk
      have h0 : ¬ c.cmp e.1 k < 0 := by have := Bmap.cmp_symm hc.cmp hk; omega
      rw [if_neg (by simpa using h0)]
      rw [Nat.add_zero, List.countP_eq_zero]
      intro x hx
      have h1 := hs.1 x hx
      have h2 := Bmap.cmp_lt_of_eq_lt hc.cmp (by omega : c.cmp k e.1 ≤ 0) h1
      have h3 : ¬ c.cmp x.1 k < 0 := by
        intro h4
        have := Bmap.cmp_lt_of_lt_eq hc.cmp h4 (by omega : c.cmp k x.1 ≤ 0)
        rw [hc.cmp.refl] at this; omega
      simpa using h3
    | succ i =>
      have hi' : i < S.length := by simpa using hi
      have hk : c.cmp k S[i].1 = 0 := hk
      have h1 := hs.1 S[i] (List.getElem_mem hi')
      have h2 : c.cmp e.1 k < 0 := Bmap.cmp_lt_of_lt_eq hc.cmp h1 (by have := Bmap.cmp_symm hc.cmp hk; omega)
      rw [if_pos (by simpa using h2)]
      have := rank_index hc hs.2 hi' hk
      unfold rank at this
      rw [this]

/-! ### hbmap -/

open Ulz.Bmap (HCfg HView SizeLe bidx hlook bucket_spec makeBucket_eq iterBucket_mk iterIndex_mk mkIter_ne buckindex_spec isNone_neg or_neg_one
  makeBucket_or idx64)
open Ulz.Bmap.Spec (HCfgOk mkIter)

theorem set_self {l : List BM} {i : Nat} (hi : i < l.length) : l.set i l[i] = l := by
  apply List.ext_getElem?
  intro j
  by_cases h : i = j
  · subst h; rw [List.getElem?_set_self hi, List.getElem?_eq_getElem hi]
  · rw [List.getElem?_set_ne h]

/-- A call on an hbmap is a call on the bucket of its key. -/
theorem hstep_bucket {c : HCfg} (hc : HCfgOk c) {h Ss} (hv : HView c h Ss) {n : Nat} (hn : SizeLe Ss n)
    (hn32 : n + 1 < 2^32) (hk : (2 * n + 4) * c.ksz < 2^64) (hvz : (2 * n + 4) * c.vsz < 2^64)
    (op : Bmap.Op) (hop : Bmap.Spec.OpOk c.toCfg op) :
    ∃ b', ∃ hb : bidx c Ss (key op) < h.length, (∃ r, Bmap.hstep c h op = .ok (h.set (bidx c Ss (key op)) b', r)) ∧
      ∃ r', Bmap.step c.toCfg h[bidx c Ss (key op)] op = .ok (b', r') := by
  have hbl : bidx c Ss (key op) < Ss.length := Bmap.bidx_lt hv _
  generalize hbdef : bidx c Ss (key op) = b at hbl
  have hbh : b < h.length := by rw [hv.len]; exact hbl
  have hb32 : b < 2^32 := by have := hv.small; omega
  have hV := hv.view b hbh
  have hcnt : h[b].keys.count = Ss[b].length := by rw [hV.keys.count]; simp
  have hcntv : h[b].values.count = Ss[b].length := by rw [hV.values.count]; simp
  have hle := hn Ss[b] (List.getElem_mem _)
  have hk0 : h[b].keys.count * c.ksz < 2^64 := mul_lt_of hk (by omega)
  have hfind : ∀ k, bidx c Ss k = b →
      (∃ i, i < Ss[b].length ∧ Bmap.hfind c h k = .ok (mkIter b i) ∧ Bmap.isNone (mkIter b i) = false ∧ Bmap.find c.toCfg h[b] k = .ok (some i)) ∨
      (Bmap.hfind c h k = .ok (-1#64) ∧ Bmap.find c.toCfg h[b] k = .ok none) := by
    intro k hkb
    unfold Bmap.hfind
    rw [buckindex_spec hv]
    simp only [ok_bindE]
    rw [hkb, makeBucket_eq hb32, iterBucket_mk hb32 (by omega), bucket_spec hbh]
    simp only [ok_bindE]
    rcases Bmap.find_spec hc.toCfgOk hV hk0 k with ⟨i, hi, f1, f2, f3⟩ | ⟨f1, f2, f3⟩
    · left
      rw [f1]
      refine ⟨i, hi, ?_, mkIter_ne (by have := hv.small; omega) (by omega), rfl⟩
      simp only [ok_bindE, pure_eq_ok, idx64]
      rw [← makeBucket_eq hb32, makeBucket_or hb32 (by omega)]
    · right
      rw [f1]
      refine ⟨?_, rfl⟩
      simp only [ok_bindE, pure_eq_ok, idx64, or_neg_one]
  cases op with
  | insert k v a1 a2 =>
    have hkb : bidx c Ss k = b := hbdef
    rcases hfind k hkb with ⟨i, hi, f1, f2, f3⟩ | ⟨f1, f3⟩
    · obtain ⟨vs, s1, s2, s3⟩ := Bmap.set_view hc.toCfgOk hV (mul_lt_of hvz (by omega)) hi v hop.2
      refine ⟨{ h[b] with values := vs }, hbh, ⟨_, by
        simp only [Bmap.hstep, Bmap.hinsert, f1, ok_bindE, f2, Bool.false_eq_true, if_false]
        unfold Bmap.hsetvalue
        rw [iterBucket_mk hb32 (by omega), bucket_spec hbh, iterIndex_mk hb32 (by omega)]
        simp only [ok_bindE, s1, pure_eq_ok]; rfl⟩, _, by simp only [Bmap.step, Bmap.insert, f3, ok_bindE, s1]; rfl⟩
    · have hnew : ∃ b' r1 ss, Bmap.insert_nocheck c.toCfg a1 a2 h[b] k v = .ok (b', r1, ss) := by
        rcases Bmap.find_spec hc.toCfgOk hV hk0 k with ⟨i, hi, g1, g2, g3⟩ | ⟨g1, g2, g3⟩
        · rw [f3] at g1; cases g1
        · rcases Bmap.nocheck_spec hc.toCfgOk hV (mul_lt_of hk (by omega)) (mul_lt_of hvz (by omega)) a1 a2 k v hop.1 hop.2 g2 with
            ⟨b', p, _, _, r1, _⟩ | ⟨_, _, r2⟩ | ⟨b', p, _, _, _, _, r2, _⟩
          · exact ⟨_, _, _, r1⟩
          · exact ⟨_, _, _, r2⟩
          · exact ⟨_, _, _, r2⟩
      obtain ⟨b', r1, ss, hnew⟩ := hnew
      refine ⟨b', hbh, ⟨_, by
        simp only [Bmap.hstep, Bmap.hinsert, f1, ok_bindE, isNone_neg, if_true]
        unfold Bmap.hinsert_nocheck
        rw [buckindex_spec hv, hkb]
        simp only [ok_bindE]
        rw [makeBucket_eq hb32, iterBucket_mk hb32 (by omega), bucket_spec hbh]
        simp only [ok_bindE, hnew, pure_eq_ok]; rfl⟩, _, by simp only [Bmap.step, Bmap.insert, f3, ok_bindE, hnew]; rfl⟩
  | get k =>
    refine ⟨h[b], hbh, ⟨_, by
      simp only [Bmap.hstep, Bmap.hget_spec hc hv hn (by omega) (mul_lt_of hk (by omega)) (mul_lt_of hvz (by omega)), set_self hbh]; rfl⟩, _, by
      simp only [Bmap.step, Bmap.get_spec hc.toCfgOk hV hk0 (mul_lt_of hvz (by omega))]; rfl⟩
  | contains k =>
    have hkb : bidx c Ss k = b := hbdef
    rcases hfind k hkb with ⟨i, hi, f1, f2, f3⟩ | ⟨f1, f3⟩
    all_goals
      exact ⟨h[b], hbh, ⟨_, by simp only [Bmap.hstep, f1, ok_bindE, set_self hbh]; rfl⟩, _, by simp only [Bmap.step, f3, ok_bindE]; rfl⟩
  | del k =>
    have hkb : bidx c Ss k = b := hbdef
    rcases hfind k hkb with ⟨i, hi, f1, f2, f3⟩ | ⟨f1, f3⟩
    · obtain ⟨b', d1, d2, d3⟩ := Bmap.delete_view hc.toCfgOk hV hk0 (mul_lt_of hvz (by omega)) hi
      refine ⟨b', hbh, ⟨_, by
        simp only [Bmap.hstep, f1, ok_bindE, f2, Bool.false_eq_true, if_false]
        unfold Bmap.hdelete
        rw [iterBucket_mk hb32 (by omega), bucket_spec hbh, iterIndex_mk hb32 (by omega)]
        simp only [ok_bindE, d1, pure_eq_ok]; rfl⟩, _, by simp only [Bmap.step, f3, ok_bindE, d1]; rfl⟩
    · exact ⟨h[b], hbh, ⟨_, by simp only [Bmap.hstep, f1, ok_bindE, isNone_neg, if_true, set_self hbh]; rfl⟩, _, by
        simp only [Bmap.step, f3, ok_bindE]; rfl⟩

theorem vals_lt {h : List BM} {j : Nat} (hj : j < h.length) : vals h j = h[j].values := by
  unfold vals
  rw [List.getElem?_eq_getElem hj]

theorem hrun_bucket {c : HCfg} (hc : HCfgOk c) (k : List Byte) (m : Nat) : ∀ (ops : List Bmap.Op) (h : List BM) (Ss : List (List (List Byte × List Byte)))
    (n : Nat) (buf : Nat → Nat) (j : Nat),
    HView c h Ss → SizeLe Ss n → n + ops.length < 2^32 →
    (2 * (n + ops.length) + 4) * c.ksz < 2^64 → (2 * (n + ops.length) + 4) * c.vsz < 2^64 →
    (∀ op ∈ ops, Bmap.Spec.OpOk c.toCfg op) → (hj : j < h.length) → h.length = m → j = (c.hash k).toNat % m →
    ∃ s rs Ss', hrun c ⟨h, buf⟩ ops = .ok (s, rs) ∧ Bmap.hrun c h ops = .ok (s.h, rs) ∧
      Bmap.Spec.HSteps c.cmp (hlook c Ss) ops (hlook c Ss') rs ∧ HView c s.h Ss' ∧ SizeLe Ss' (n + ops.length) ∧
      ∃ hl : s.h.length = h.length, ∃ rs', run c.toCfg ⟨h[j], buf j⟩ (sameBucket c m k ops) = .ok (⟨s.h[j], s.buf j⟩, rs')
  | [], h, Ss, n, buf, j, hv, hn, _, _, _, _, hj, _, _ => ⟨⟨h, buf⟩, [], Ss, rfl, rfl, .nil, hv, by simpa using hn, rfl, [], rfl⟩
  | op :: ops, h, Ss, n, buf, j, hv, hn, h32, hk, hvz, hop, hj, hm, hjk => by
    simp only [List.length_cons] at hk hvz h32
    obtain ⟨h1, r, Ss1, e1, e2, e3, e4, e5⟩ := Bmap.hstep_spec hc hv hn (by omega) (mul_lt_of hk (by omega)) (mul_lt_of hvz (by omega)) op
      (hop op (by simp))
    obtain ⟨b', hb, ⟨r0, g1⟩, r', g2⟩ := hstep_bucket hc hv hn (by omega) (mul_lt_of hk (by omega)) (mul_lt_of hvz (by omega)) op
      (hop op (by simp))
    rw [e1] at g1
    have g1 := Except.ok.inj g1
    have hh1 : h1 = h.set (bidx c Ss (key op)) b' := congrArg Prod.fst g1
    obtain ⟨s, rs, Ss2, r1, r1', r2, r3, r4, hl, rs', r6⟩ := hrun_bucket hc k m ops h1 Ss1 (n + 1) (fun j => nextBuf (vals h j) (vals h1 j) (buf j)) j
      e3 e4 (by omega) (mul_lt_of hk (by omega)) (mul_lt_of hvz (by omega)) (fun o ho => hop o (by simp [ho])) (by omega) (by omega) hjk
    refine ⟨s, r :: rs, Ss2, ?_, ?_, .cons e2 r2, r3, ?_, by omega, ?_⟩
    · simp only [hrun, hstep, e1, ok_bindE, pure_eq_ok]; rw [r1]; rfl
    · simp only [Bmap.hrun, e1, ok_bindE]; rw [r1']; rfl
    · intro S hS
      have := r4 S hS
      simp; omega
    · have hbe : bidx c Ss (key op) = (c.hash (key op)).toNat % m := by unfold bidx; rw [← hm, hv.len]
      have hj1 : j < h1.length := by omega
      rw [vals_lt hj, vals_lt hj1] at r6
      unfold sameBucket at r6 ⊢
      rw [List.filter_cons]
      by_cases e : (c.hash (key op)).toNat % m = (c.hash k).toNat % m
      · rw [if_pos (by simpa using e)]
        have hjb : bidx c Ss (key op) = j := by rw [hbe, e, hjk]
        have h1j : h1[j] = b' := by
          have : h1[j]? = some b' := by rw [hh1, hjb, List.getElem?_set_self hj]
          exact (List.getElem?_eq_some_iff.1 this).2
        have g2 : Bmap.step c.toCfg h[j] op = .ok (b', r') := by
          have : h[bidx c Ss (key op)] = h[j] := by congr 1
          rw [← this]; exact g2
        rw [h1j] at r6
        refine ⟨r' :: rs', ?_⟩
        simp only [run, step, g2, ok_bindE, pure_eq_ok]
        rw [r6]; rfl
      · rw [if_neg (by simpa using e)]
        have hjb : bidx c Ss (key op) ≠ j := by rw [hbe, hjk]; exact e
        have h1j : h1[j] = h[j] := by
          have : h1[j]? = some h[j] := by rw [hh1, List.getElem?_set_ne hjb, List.getElem?_eq_getElem hj]
          exact (List.getElem?_eq_some_iff.1 this).2
        rw [h1j] at r6
        refine ⟨rs', ?_⟩
        simp only [nextBuf, if_true] at r6
        exact r6

/-! ### Undisturbed keys -/

theorem rank_le {c : Cfg} (hc : CfgOk c) (k : List Byte) : ∀ (S S' : List (List Byte × List Byte)), (S.Pairwise fun x y => c.cmp x.1 y.1 < 0) →
    (∀ e ∈ S, c.cmp e.1 k < 0 → ∃ e' ∈ S', c.cmp e.1 e'.1 = 0) → rank c.cmp S k ≤ rank c.cmp S' k
  | [], _, _, _ => by simp [rank]
  | e :: S, S', hs, h => by
    rw [List.pairwise_cons] at hs
    unfold rank
    rw [List.countP_cons]
    by_cases hlt : c.cmp e.1 k < 0
    · obtain ⟨e', he', heq⟩ := h e (by simp) hlt
      obtain ⟨A, B, rfl⟩ := List.append_of_mem he'
      have hlt' : c.cmp e'.1 k < 0 := Bmap.cmp_lt_of_eq_lt hc.cmp (by have := Bmap.cmp_symm hc.cmp heq; omega) hlt
      have := rank_le hc k S (A ++ B) hs.2 (fun x hx hxk => by
        obtain ⟨y, hy, hxy⟩ := h x (by simp [hx]) hxk
        rcases List.mem_append.1 hy with hy | hy
        · exact ⟨y, by simp [hy], hxy⟩
        · rcases List.mem_cons.1 hy with rfl | hy
          · exact absurd (Bmap.cmp_eq_trans hc.cmp heq (Bmap.cmp_symm hc.cmp hxy)) (by have := hs.1 x hx; omega)
          · exact ⟨y, by simp [hy], hxy⟩)
      unfold rank at this
      rw [List.countP_append] at this ⊢
      rw [List.countP_cons, if_pos (by simpa using hlt), if_pos (by simpa using hlt')]
      omega
    · rw [if_neg (by simpa using hlt)]
      have := rank_le hc k S S' hs.2 (fun x hx => h x (by simp [hx]))
      unfold rank at this
      omega

theorem steps_keep {cmp : List Byte → List Byte → Int} {M M' : Bmap.Spec.Map} {ops rs} (h : Bmap.Spec.Steps cmp M ops M' rs) (a : List Byte)
    (hk : ∀ op ∈ ops, match op with | .insert k' _ _ _ => cmp a k' ≠ 0 | .del k' => cmp a k' ≠ 0 | _ => True) : M' a = M a := by
  induction h with
  | nil => rfl
  | cons h1 _ ih =>
    rw [ih (fun o ho => hk o (by simp [ho]))]
    have := hk _ (List.mem_cons_self ..)
    cases h1 with
    | insert => simp only [upd]; rw [if_neg this]
    | insertFail => rfl
    | get => rfl
    | contains => rfl
    | del => simp only [Bmap.Spec.rem]; rw [if_neg this]

theorem steps_some {cmp : List Byte → List Byte → Int} {M M' : Bmap.Spec.Map} {ops rs} (h : Bmap.Spec.Steps cmp M ops M' rs) (a : List Byte)
    (hk : ∀ op ∈ ops, match op with | .del k' => cmp a k' ≠ 0 | _ => True) (hs : ∃ v, M a = some v) : ∃ v, M' a = some v := by
  induction h with
  | nil => exact hs
  | cons h1 _ ih =>
    apply ih (fun o ho => hk o (by simp [ho]))
    have := hk _ (List.mem_cons_self ..)
    cases h1 with
    | insert => simp only [upd]; split <;> first | exact ⟨_, rfl⟩ | exact hs
    | insertFail => exact hs
    | get => exact hs
    | contains => exact hs
    | del => simp only [Bmap.Spec.rem]; rw [if_neg this]; exact hs

theorem lookup_some {cmp : List Byte → List Byte → Int} {S : List (List Byte × List Byte)} {k : List Byte} :
    (∃ v, lookup cmp S k = some v) ↔ ∃ e ∈ S, cmp k e.1 = 0 := by
  constructor
  · rintro ⟨v, h⟩
    refine Classical.byContradiction fun hn => ?_
    rw [Bmap.lookup_none.2 (fun e he e0 => hn ⟨e, he, e0⟩)] at h
    cases h
  · rintro ⟨e, he, h0⟩
    cases h : lookup cmp S k with
    | some v => exact ⟨v, rfl⟩
    | none => exact absurd h0 (Bmap.lookup_none.1 h e he)

theorem undisturbed_rank {c : Cfg} (hc : CfgOk c) {S S' : List (List Byte × List Byte)} (hs : S.Pairwise fun x y => c.cmp x.1 y.1 < 0)
    (hs' : S'.Pairwise fun x y => c.cmp x.1 y.1 < 0) {ops rs k} (h : Bmap.Spec.Steps c.cmp (lookup c.cmp S) ops (lookup c.cmp S') rs)
    (hu : Undisturbed c.cmp k ops) : rank c.cmp S' k = rank c.cmp S k := by
  have key : ∀ a, c.cmp a k < 0 → lookup c.cmp S' a = lookup c.cmp S a := by
    intro a ha
    refine steps_keep h a fun op hop => ?_
    have := hu op hop
    match op with
    | .insert k' _ _ _ =>
      intro e
      exact this (Bmap.cmp_lt_of_eq_lt hc.cmp (by have := Bmap.cmp_symm hc.cmp e; omega) ha)
    | .del k' =>
      intro e
      have h1 := Bmap.cmp_lt_of_lt_eq hc.cmp ha (by have : c.cmp k k' < 0 := this; omega : c.cmp k k' ≤ 0)
      omega
    | .get _ => trivial
    | .contains _ => trivial
  apply Nat.le_antisymm
  · refine rank_le hc k S' S hs' fun e he hek => ?_
    apply lookup_some.1
    rw [← key _ hek]
    exact lookup_some.2 ⟨e, he, hc.cmp.refl _⟩
  · refine rank_le hc k S S' hs fun e he hek => ?_
    apply lookup_some.1
    rw [key _ hek]
    exact lookup_some.2 ⟨e, he, hc.cmp.refl _⟩

theorem hgetp_bucket {c : HCfg} (hc : HCfgOk c) {s : HHB} {Ss} (hv : HView c s.h Ss) {n : Nat} (hn : SizeLe Ss n)
    (hn32 : n < 2^32) (hb : n * c.ksz < 2^64) (k : List Byte) {b : Nat} (hbdef : bidx c Ss k = b) :
    ∃ hb : b < s.h.length, hgetp c s k = .ok (match getp c.toCfg ⟨s.h[b], s.buf b⟩ k with
      | .ok (some p) => some ⟨b, p⟩ | _ => none) ∧ ∃ o, getp c.toCfg ⟨s.h[b], s.buf b⟩ k = .ok o := by
  have hbl : bidx c Ss k < Ss.length := Bmap.bidx_lt hv k
  rw [hbdef] at hbl
  have hbh : b < s.h.length := by rw [hv.len]; exact hbl
  have hb32 : b < 2^32 := by have := hv.small; omega
  have hV := hv.view b hbh
  have hcnt : s.h[b].keys.count = Ss[b].length := by rw [hV.keys.count]; simp
  have hle := hn Ss[b] (List.getElem_mem _)
  refine ⟨hbh, ?_⟩
  unfold hgetp Bmap.hfind
  rw [buckindex_spec hv]
  simp only [ok_bindE]
  rw [hbdef, makeBucket_eq hb32, iterBucket_mk hb32 (by omega), bucket_spec hbh]
  simp only [ok_bindE, getp]
  rcases Bmap.find_spec hc.toCfgOk hV (mul_lt_of hb (by omega)) k with ⟨i, hi, f1, f2, f3⟩ | ⟨f1, f2, f3⟩
  · rw [f1]
    simp only [ok_bindE, pure_eq_ok, idx64]
    rw [← makeBucket_eq hb32, makeBucket_or hb32 (by omega), mkIter_ne (by have := hv.small; omega) (by omega),
      iterBucket_mk hb32 (by omega), iterIndex_mk hb32 (by omega), bucket_spec hbh]
    exact ⟨rfl, _, rfl⟩
  · rw [f1]
    simp only [ok_bindE, pure_eq_ok, idx64, or_neg_one, isNone_neg, if_true]
    exact ⟨trivial, _, rfl⟩

theorem hread_bucket {c : HCfg} {s : HHB} {j : Nat} (hj : j < s.h.length) (p : Ptr) :
    hread c s ⟨j, p⟩ = vread c.toCfg ⟨s.h[j], s.buf j⟩ p := by
  unfold hread vread
  simp only [vals_lt hj]

end Ulz.Mapptr
