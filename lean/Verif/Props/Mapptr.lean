import Verif.Proofs.Mapptr
import Verif.Props.Bmap
/-! C196: how long a pointer to a value of a map, or to an item of a tgilist, stays good, and what it shows meanwhile. -/
namespace Ulz.Props
open Ulz.Mapptr Ulz.Mapptr.Spec
open Ulz.Tglist (TGI look IRep)
open Ulz.Bmap (BM Cfg HCfg hlook bidx)
open Ulz.Ibmap (BMI)
open Ulz.Bmap.Spec (lookup CfgOk HCfgOk upd)
open Ulz.Sblist (mul_lt_of)

/-- C196. A pointer `&tgilist_get(l, i)`, kept over any history of calls with any allocation failures, belongs to the item and not to the
    index: it shows the item's value, changed by every `tgilist_set` at the index where the item then is, and, once the item has been
    deleted, for ever the value it had; as long as the item is in the list, `&tgilist_get` at its index is the same pointer. Only the growth
    of the array of items ends this. -/
theorem tgilist_pointer (w isz : Nat) (l : TGI) (idxs : List Nat) (vals : List (List Byte)) (h : IRep w isz l idxs vals)
    (hic : l.index.count ≤ vals.length) (ops : List Tglist.IOp) (hw : (2 * (vals.length + ops.length) + 4) * w < 2^64)
    (hs : (2 * (vals.length + ops.length) + 4) * isz < 2^64) (hf : vals.length + ops.length ≤ 256^w) (hv : Tglist.Spec.IValid w isz l ops)
    (n i : Nat) (hi : i < (look vals idxs).length) :
    ∃ p s rs xs, iptr w isz ⟨l, n⟩ i = .ok p ∧ iread isz ⟨l, n⟩ p = .ok (look vals idxs)[i] ∧ irun w isz ⟨l, n⟩ ops = .ok (s, rs) ∧
      Tglist.irun w isz l ops = .ok (s.l, rs) ∧ Tglist.Spec.ISteps (look vals idxs) ops xs rs ∧
      (iread isz s p = if s.l.items.capa = l.items.capa then .ok (Item.follow ⟨some i, (look vals idxs)[i]⟩ ops rs).val else .error .freed) ∧
      ∀ k, (Item.follow ⟨some i, (look vals idxs)[i]⟩ ops rs).pos = some k →
        xs[k]? = some (Item.follow ⟨some i, (look vals idxs)[i]⟩ ops rs).val ∧
        (s.l.items.capa = l.items.capa → iptr w isz s k = .ok p) := by
  have hi' : i < idxs.length := by simpa [look] using hi
  have hq := h.lt _ (List.getElem_mem hi')
  have hcc : l.index.count = idxs.length := by have := h.index.count; simpa using this
  have hval : (look vals idxs)[i] = vals[idxs[i]] := by
    simp only [look, List.getElem_map, List.getD_eq_getElem?_getD, List.getElem?_eq_getElem hq, Option.getD_some]
  generalize hq0 : idxs[i] = q at hq hval
  have hin : In ⟨some i, (look vals idxs)[i]⟩ q idxs vals :=
    ⟨by rw [hval]; exact List.getElem?_eq_getElem hq, by show idxs[i]? = some q; rw [← hq0]; exact List.getElem?_eq_getElem hi'⟩
  obtain ⟨s, rs, i2, v2, r1, r1', r2, r3, r4, r5, ⟨a1, a2⟩, r7, r8, r9, _⟩ := irun_item ops l idxs vals n n q _ h hic hw hs hf hv (Nat.le_refl _) hin
  have hb0 : l.items.count * isz < 2^64 := mul_lt_of hs (by have := h.items.count; omega)
  have hb1 : s.l.items.count * isz < 2^64 := mul_lt_of hs (by have := r3.items.count; omega)
  have hz : szt (q * isz) = q * isz := szt_of_lt (mul_lt_of hs (by omega))
  have hq2 : q < v2.length := (List.getElem?_eq_some_iff.1 a1).1
  refine ⟨⟨n, szt (q * isz)⟩, s, rs, look v2 i2, ?_, ?_, r1, r1', r2, ?_, ?_⟩
  · unfold iptr
    rw [Tglist.iidx_spec h (mul_lt_of hw (by omega)) hi', ok_bindE, hq0]; rfl
  · unfold iread deref
    simp only
    rw [if_neg (by simp), hz, Held.tg_slot h.items hb0 hq, hval]; rfl
  · unfold iread deref
    simp only
    by_cases e : s.l.items.capa = l.items.capa
    · rw [if_neg (by simp [r9.2 e]), if_pos e, hz, Held.tg_slot r3.items hb1 hq2, (List.getElem?_eq_some_iff.1 a1).2]; rfl
    · rw [if_pos (fun h => e (r9.1 h.symm)), if_neg e]
  · intro k hk
    rw [hk] at a2
    have a2 : i2[k]? = some q := a2
    obtain ⟨b1, b2⟩ := List.getElem?_eq_some_iff.1 a2
    have hc2 : s.l.index.count = i2.length := by have := r3.index.count; simpa using this
    refine ⟨?_, fun e => ?_⟩
    · simp only [look, List.getElem?_map, a2, Option.map_some, List.getD_eq_getElem?_getD]
      rw [a1]; rfl
    · unfold iptr
      rw [Tglist.iidx_spec r3 (mul_lt_of hw (by omega)) b1, ok_bindE, b2, r9.2 e]; rfl

/-- C196. The array of items does not grow while all the items ever added (the deleted ones too) fit into it. -/
theorem tgilist_pointer_room (w isz : Nat) (l : TGI) (idxs : List Nat) (vals : List (List Byte)) (h : IRep w isz l idxs vals)
    (hic : l.index.count ≤ vals.length) (ops : List Tglist.IOp) (hw : (2 * (vals.length + ops.length) + 4) * w < 2^64)
    (hs : (2 * (vals.length + ops.length) + 4) * isz < 2^64) (hf : vals.length + ops.length ≤ 256^w) (hv : Tglist.Spec.IValid w isz l ops)
    (n i : Nat) (hi : i < (look vals idxs).length) (hroom : vals.length + stores ops ≤ l.items.capa) :
    ∃ p s rs, iptr w isz ⟨l, n⟩ i = .ok p ∧ irun w isz ⟨l, n⟩ ops = .ok (s, rs) ∧
      iread isz s p = .ok (Item.follow ⟨some i, (look vals idxs)[i]⟩ ops rs).val := by
  obtain ⟨p, s, rs, xs, f1, _, f3, _, _, f6, _⟩ := tgilist_pointer w isz l idxs vals h hic ops hw hs hf hv n i hi
  refine ⟨p, s, rs, f1, f3, ?_⟩
  have hi' : i < idxs.length := by simpa [look] using hi
  have hq := h.lt _ (List.getElem_mem hi')
  have hin : In ⟨some i, vals[idxs[i]]⟩ idxs[i] idxs vals := ⟨List.getElem?_eq_getElem hq, List.getElem?_eq_getElem hi'⟩
  obtain ⟨s', rs', _, _, r1, _, _, _, _, _, _, _, _, _, r10⟩ := irun_item ops l idxs vals n n _ _ h hic hw hs hf hv (Nat.le_refl _) hin
  rw [f3] at r1
  cases r1
  rw [f6, if_pos (r10 (by rw [h.items.count]; exact hroom))]

/-- A list of one-byte items with one-byte indices, 7 and 8 in it, room for four. A pointer to the 8 at index 1 goes on showing it when the 7
    is deleted and a 5 inserted, shows the value set at its new index, and still does after the deletion. The fifth item ever added makes the
    array grow, also if the insertion then fails for want of memory for the index. -/
example : ([[], [.delete 0, .insert [5] 0 none none], [.delete 0, .insert [5] 0 none none, .set [9] 1], [.set [9] 1, .delete 1, .set [3] 0],
      [.delete 0, .add [1] none none, .add [2] none none], [.delete 0, .add [1] none none, .add [2] none none, .add [3] none (some fun _ => 0)],
      [.delete 0, .add [1] none none, .add [2] none none, .add [3] none none, .insert [6] 0 none (some fun _ => 0)],
      [.add [1] none none, .add [2] none none, .insert [6] 0 none (some fun _ => 0)]] : List (List Tglist.IOp)).map
      (fun ops => match irun 1 1 ⟨⟨⟨2, 4, [0, 1, 0, 0]⟩, ⟨2, 4, [7, 8, 0, 0]⟩⟩, 3⟩ ops with
        | .ok (s, rs) => (iread 1 s ⟨3, 1⟩, rs.getLast?) | .error e => (.error (.ub e), none)) =
    [(.ok [8], none), (.ok [8], some (.int 1)), (.ok [9], some (.int 1)), (.ok [9], some (.int 1)), (.ok [8], some (.int 1)),
      (.error .freed, some (.int 1)), (.error .freed, some (.int 1)), (.error .freed, some (.int 0))] ∧
    iptr 1 1 ⟨⟨⟨2, 4, [0, 1, 0, 0]⟩, ⟨2, 4, [7, 8, 0, 0]⟩⟩, 3⟩ 1 = .ok ⟨3, 1⟩ := by decide +kernel

/-- The hypotheses of the theorem hold for it. -/
example : IRep 1 1 ⟨⟨2, 4, [0, 1, 0, 0]⟩, ⟨2, 4, [7, 8, 0, 0]⟩⟩ [0, 1] [[7], [8]] ∧
    Tglist.Spec.IValid 1 1 ⟨⟨2, 4, [0, 1, 0, 0]⟩, ⟨2, 4, [7, 8, 0, 0]⟩⟩ [.delete 0] := by
  refine ⟨⟨⟨by decide, rfl, by decide, by decide, [0, 0], by decide, rfl⟩, ⟨by decide, rfl, by decide, by decide, [0, 0], rfl, rfl⟩, by decide,
    by decide, by decide⟩, ?_⟩
  intro pre op post he l' rs hr
  match pre, he with
  | [], he => cases he; cases hr; show 0 < 2; decide
  | _ :: _, he => have := congrArg List.length he; simp at this

/-- C196. The pointer `bmap_get(map, k)` returns in a map with the default value list, kept over any history of calls with any allocation
    failures. Reading through it is reading freed memory exactly if the map has had, at some time since, more entries than its values had
    room for when the pointer was taken. Otherwise it shows the value of whatever key is now the `r`-th smallest, where `r` is the number
    of keys that were smaller than `k` when the pointer was taken; it never faults. -/
theorem bmap_pointer (c : Cfg) (hc : CfgOk c) (b : BM) (S : List (List Byte × List Byte)) (h : Bmap.Spec.View c b S) (ops : List Bmap.Op)
    (hk : (2 * (S.length + ops.length) + 4) * c.ksz < 2^64) (hv : (2 * (S.length + ops.length) + 4) * c.vsz < 2^64)
    (hop : ∀ op ∈ ops, Bmap.Spec.OpOk c op) (n : Nat) (k v : List Byte) (hkv : lookup c.cmp S k = some v) :
    ∃ p s rs S', getp c ⟨b, n⟩ k = .ok (some p) ∧ vread c ⟨b, n⟩ p = .ok v ∧ run c ⟨b, n⟩ ops = .ok (s, rs) ∧ Bmap.run c b ops = .ok (s.b, rs) ∧
      Bmap.Spec.View c s.b S' ∧ Bmap.Spec.Steps c.cmp (lookup c.cmp S) ops (lookup c.cmp S') rs ∧
      if peak c b ops ≤ b.values.capa then ∃ x, vread c s p = .ok x ∧ ∀ e, S'[rank c.cmp S k]? = some e → x = e.2
      else vread c s p = .error .freed := by
  have hkc : b.keys.count = S.length := by rw [h.keys.count]; simp
  have hvc : b.values.count = S.length := by rw [h.values.count]; simp
  have hb0 : b.values.count * c.vsz < 2^64 := mul_lt_of hv (by omega)
  rcases Bmap.find_spec hc h (mul_lt_of hk (by omega)) k with ⟨i, hi, f1, f2, f3⟩ | ⟨_, _, f3⟩
  · have hr := rank_index hc h.sorted hi f2
    have hve : v = S[i].2 := by rw [hkv] at f3; exact Option.some.inj f3
    obtain ⟨s, rs, S', r1, r1', r2, r3, r4, r5, r6, r7⟩ := run_values hc ops b S n h hk hv hop
    have hvc' : s.b.values.count = S'.length := by rw [r3.values.count]; simp
    have hz : szt (i * c.vsz) = i * c.vsz := szt_of_lt (mul_lt_of hv (by omega))
    refine ⟨⟨n, szt (i * c.vsz)⟩, s, rs, S', by simp only [getp, f1]; rfl, ?_, r1, r1', r3, r2, ?_⟩
    · unfold vread deref
      simp only
      rw [if_neg (by simp), hz, Held.tg_slot h.values hb0 (i := i) (by simpa using hi), hve]
      simp only [List.getElem_map]; rfl
    · by_cases e : peak c b ops ≤ b.values.capa
      · rw [if_pos e]
        have hbuf := r6.2 e
        have hcap := r7 hbuf
        have hin : i * c.vsz + c.vsz ≤ s.b.values.items.length := by
          rw [r3.values.items_length, hcap, ← Nat.succ_mul]
          exact Nat.mul_le_mul_right _ (by have := h.values.capa; omega)
        have hread : ∃ x, rdN s.b.values.items (i * c.vsz) c.vsz = .ok x := by
          unfold rdN
          rw [if_pos hin]; exact ⟨_, rfl⟩
        obtain ⟨x, hx⟩ := hread
        refine ⟨x, ?_, ?_⟩
        · unfold vread deref
          simp only
          rw [if_neg (by simp [hbuf]), hz, hx]; rfl
        · intro e' he
          rw [hr] at he
          obtain ⟨hi', he'⟩ := List.getElem?_eq_some_iff.1 he
          have := Held.tg_slot r3.values (mul_lt_of hv (by omega)) (i := i) (by simpa using hi')
          rw [hx] at this
          have := Except.ok.inj this
          rw [this, List.getElem_map, he']
      · rw [if_neg e]
        unfold vread deref
        simp only
        rw [if_pos]
        intro hh
        exact e (r6.1 hh.symm)
  · rw [hkv] at f3; cases f3

/-- Keys 3 and 5 with values 7 and 8, room for four. The pointer to the value of 5 shows an update of it; after the deletion of 3 it still
    shows 8, which is not in its place any more; after the insertion of 4 it shows the value of 4; the fifth entry makes the array grow. -/
example : ([[], [.insert [5, 0] [9] none none], [.del [3, 0]], [.insert [4, 0] [6] none none],
      [.del [3, 0], .insert [4, 0] [6] none none],
      [.insert [1, 0] [1] none none, .insert [2, 0] [2] none none, .insert [4, 0] [6] (some fun _ => 0) (some fun _ => 0), .del [1, 0]]] :
      List (List Bmap.Op)).map (fun ops => match run demoCfg ⟨⟨⟨2, 4, [3, 0, 5, 0, 0, 0, 0, 0]⟩, ⟨2, 4, [7, 8, 0, 0]⟩⟩, 3⟩ ops with
        | .ok (s, _) => vread demoCfg s ⟨3, 1⟩ | .error e => .error (.ub e)) =
    [.ok [8], .ok [9], .ok [8], .ok [6], .ok [8], .error .freed] ∧
    getp demoCfg ⟨⟨⟨2, 4, [3, 0, 5, 0, 0, 0, 0, 0]⟩, ⟨2, 4, [7, 8, 0, 0]⟩⟩, 3⟩ [5, 1] = .ok (some ⟨3, 1⟩) ∧
    peak demoCfg ⟨⟨2, 4, [3, 0, 5, 0, 0, 0, 0, 0]⟩, ⟨2, 4, [7, 8, 0, 0]⟩⟩ [.del [3, 0], .insert [4, 0] [6] none none] = 2 ∧
    rank demoCmp [([3, 0], [7]), ([5, 0], [8])] [5, 1] = 1 := by decide +kernel

/-- The hypotheses of the theorem hold for it. -/
example : Bmap.Spec.View demoCfg ⟨⟨2, 4, [3, 0, 5, 0, 0, 0, 0, 0]⟩, ⟨2, 4, [7, 8, 0, 0]⟩⟩ [([3, 0], [7]), ([5, 0], [8])] ∧
    lookup demoCfg.cmp [([3, 0], [7]), ([5, 0], [8])] [5, 1] = some [8] ∧
    (∀ op ∈ ([.del [3, 0], .insert [4, 0] [6] none none] : List Bmap.Op), Bmap.Spec.OpOk demoCfg op) :=
  ⟨⟨⟨by decide, rfl, by simp [demoCfg], by simp, [0, 0, 0, 0], rfl, rfl⟩, ⟨by decide, rfl, by simp [demoCfg], by simp, [0, 0], rfl, rfl⟩,
    by decide +kernel⟩, by decide +kernel, by simp [Bmap.Spec.OpOk, demoCfg]⟩

/-- C196. So the pointer is good for its own key exactly as long as that is there and has as many smaller keys as when the pointer was
    taken: then it shows the key's value, and only then is it what `bmap_get` returns. -/
theorem bmap_pointer_own (c : Cfg) (hc : CfgOk c) (b : BM) (S : List (List Byte × List Byte)) (h : Bmap.Spec.View c b S) (ops : List Bmap.Op)
    (hk : (2 * (S.length + ops.length) + 4) * c.ksz < 2^64) (hv : (2 * (S.length + ops.length) + 4) * c.vsz < 2^64)
    (hop : ∀ op ∈ ops, Bmap.Spec.OpOk c op) (n : Nat) (k v : List Byte) (hkv : lookup c.cmp S k = some v)
    (hroom : peak c b ops ≤ b.values.capa) :
    ∃ p s rs S', getp c ⟨b, n⟩ k = .ok (some p) ∧ run c ⟨b, n⟩ ops = .ok (s, rs) ∧ Bmap.Spec.View c s.b S' ∧
      ∀ v', lookup c.cmp S' k = some v' →
        (getp c s k = .ok (some p) ↔ rank c.cmp S' k = rank c.cmp S k) ∧ (rank c.cmp S' k = rank c.cmp S k → vread c s p = .ok v') := by
  obtain ⟨p, s, rs, S', g1, g2, g3, g4, g5, g6, g7⟩ := bmap_pointer c hc b S h ops hk hv hop n k v hkv
  obtain ⟨s', rs', S'', r1, r1', r2, r3, r4, r5, r6, r7⟩ := run_values hc ops b S n h hk hv hop
  rw [g3] at r1
  cases r1
  have hl : S''.length = S'.length := by
    have h1 := r3.keys.count
    have h2 := g5.keys.count
    simp only [List.length_map] at h1 h2
    omega
  refine ⟨p, s, rs, S', g1, g3, g5, fun v' hv' => ?_⟩
  rw [if_pos hroom] at g7
  obtain ⟨x, hx, hx'⟩ := g7
  have hkc : b.keys.count = S.length := by rw [h.keys.count]; simp
  have hkc' : s.b.keys.count = S'.length := by rw [g5.keys.count]; simp
  rcases Bmap.find_spec hc h (mul_lt_of hk (by omega)) k with ⟨i, hi, f1, f2, f3⟩ | ⟨_, _, f3⟩
  · rcases Bmap.find_spec hc g5 (mul_lt_of hk (by omega)) k with ⟨j, hj, e1, e2, e3⟩ | ⟨_, _, e3⟩
    · have hri := rank_index hc h.sorted hi f2
      have hrj := rank_index hc g5.sorted hj e2
      have hp : p = ⟨n, i * c.vsz⟩ := by
        simp only [getp, f1, ok_bindE] at g1
        rw [szt_of_lt (mul_lt_of hv (by omega))] at g1
        exact (Option.some.inj (Except.ok.inj g1)).symm
      have hgp : getp c s k = .ok (some ⟨n, j * c.vsz⟩) := by
        simp only [getp, e1, ok_bindE]
        rw [szt_of_lt (mul_lt_of hv (by omega)), r6.2 hroom]; rfl
      constructor
      · rw [hgp, hp, hri, hrj]
        constructor
        · intro e
          have e := Option.some.inj (Except.ok.inj e)
          have e : j * c.vsz = i * c.vsz := by injection e
          exact Nat.eq_of_mul_eq_mul_right hc.vsz e
        · rintro rfl; rfl
      · intro e
        rw [hri, hrj] at e
        subst e
        have := hx' S'[j] (by rw [hri]; exact List.getElem?_eq_getElem hj)
        rw [hx, this]
        rw [hv'] at e3
        rw [Option.some.inj e3]
    · rw [hv'] at e3; cases e3
  · rw [hkv] at f3; cases f3

/-- C196. That is so while no smaller key is inserted, no smaller one deleted, and it is not deleted itself: then the pointer is what
    `bmap_get` still returns, and shows the key's value. -/
theorem bmap_pointer_undisturbed (c : Cfg) (hc : CfgOk c) (b : BM) (S : List (List Byte × List Byte)) (h : Bmap.Spec.View c b S)
    (ops : List Bmap.Op) (hk : (2 * (S.length + ops.length) + 4) * c.ksz < 2^64) (hv : (2 * (S.length + ops.length) + 4) * c.vsz < 2^64)
    (hop : ∀ op ∈ ops, Bmap.Spec.OpOk c op) (n : Nat) (k v : List Byte) (hkv : lookup c.cmp S k = some v)
    (hroom : peak c b ops ≤ b.values.capa) (hu : Undisturbed c.cmp k ops) :
    ∃ p s rs v', getp c ⟨b, n⟩ k = .ok (some p) ∧ run c ⟨b, n⟩ ops = .ok (s, rs) ∧ getp c s k = .ok (some p) ∧
      vread c s p = .ok v' ∧ Bmap.get c s.b k = .ok (some v') := by
  obtain ⟨p, s, rs, S', g1, g3, g5, g6⟩ := bmap_pointer_own c hc b S h ops hk hv hop n k v hkv hroom
  obtain ⟨s', rs', S'', r1, r1', r2, r3, r4, _⟩ := run_values hc ops b S n h hk hv hop
  rw [g3] at r1
  cases r1
  obtain ⟨v', hv'⟩ := steps_some r2 k (fun op ho => by
    have := hu op ho
    match op with
    | .insert _ _ _ _ => trivial
    | .get _ => trivial
    | .contains _ => trivial
    | .del k' => intro e; have : c.cmp k k' < 0 := this; omega) ⟨v, hkv⟩
  have hkc : s.b.keys.count = S''.length := by rw [r3.keys.count]; simp
  have hget'' := Bmap.get_spec hc r3 (mul_lt_of hk (by omega)) (mul_lt_of hv (by omega))
  have hkc' : s.b.keys.count = S'.length := by rw [g5.keys.count]; simp
  have hget' := Bmap.get_spec hc g5 (mul_lt_of hk (by omega)) (mul_lt_of hv (by omega))
  have hll : lookup c.cmp S' = lookup c.cmp S'' := by
    funext a
    have h1 := hget' a
    rw [hget'' a] at h1
    exact (Except.ok.inj h1).symm
  have hr := undisturbed_rank hc h.sorted g5.sorted (by rw [hll]; exact r2) hu
  rw [← hll] at hv'
  obtain ⟨q1, q2⟩ := g6 v' hv'
  exact ⟨p, s, rs, v', g1, g3, q1.2 hr, q2 hr, by rw [hget' k, hv']⟩

/-- The calls of the example above that do not disturb the key 5, and one that does. -/
example : Undisturbed demoCfg.cmp [5, 1] [.insert [5, 0] [9] none none, .insert [6, 0] [1] none none, .del [6, 0], .get [3, 0]] ∧
    ¬ Undisturbed demoCfg.cmp [5, 1] [.del [3, 0]] := by
  constructor
  · intro op h
    simp only [List.mem_cons, List.not_mem_nil, or_false] at h
    rcases h with rfl | rfl | rfl | rfl
    · show ¬ demoCmp [5, 0] [5, 1] < 0; decide
    · show ¬ demoCmp [6, 0] [5, 1] < 0; decide
    · show demoCmp [5, 1] [6, 0] < 0; decide
    · trivial
  · intro h
    have : demoCmp [5, 1] [3, 0] < 0 := h (.del [3, 0]) (by simp)
    revert this; decide

/-- C196. The pointer `hbmap_get(map, k)` returns is one into the key's bucket, and only the calls whose keys fall into that bucket matter to
    it. Reading through it after any further history is reading freed memory exactly if the bucket has had, at some time since, more
    entries than its values had room for when the pointer was taken. Otherwise it never faults, it shows the value of any key for which
    `hbmap_get` now returns it, and `k` is such a key if the calls on the bucket have not disturbed it. -/
theorem hbmap_pointer (c : HCfg) (hc : HCfgOk c) (m : Nat) (h0 : 0 < m) (hm : m < 2^32) (pre ops : List Bmap.Op)
    (h32 : pre.length + ops.length < 2^32) (hk : (2 * (pre.length + ops.length) + 4) * c.ksz < 2^64)
    (hv : (2 * (pre.length + ops.length) + 4) * c.vsz < 2^64) (hop : ∀ op ∈ pre ++ ops, Bmap.Spec.OpOk c.toCfg op) :
    ∃ s rs M s' rs' M', hrun c ⟨Bmap.hinit m, fun _ => 0⟩ pre = .ok (s, rs) ∧ Bmap.Spec.HSteps c.cmp Bmap.Spec.empty pre M rs ∧
      hrun c s ops = .ok (s', rs') ∧ Bmap.hrun c s.h ops = .ok (s'.h, rs') ∧ Bmap.Spec.HSteps c.cmp M ops M' rs' ∧
      ∀ k v, M k = some v → ∃ p b, hgetp c s k = .ok (some p) ∧ hread c s p = .ok v ∧ p.bucket = (c.hash k).toNat % m ∧
        s.h[p.bucket]? = some b ∧
        if peak c.toCfg b (sameBucket c m k ops) ≤ b.values.capa then
          (∃ x, hread c s' p = .ok x) ∧ (∀ k', hgetp c s' k' = .ok (some p) → ∃ v', M' k' = some v' ∧ hread c s' p = .ok v') ∧
          (Undisturbed c.cmp k (sameBucket c m k ops) → hgetp c s' k = .ok (some p))
        else hread c s' p = .error .freed := by
  have he : hlook c (List.replicate m []) = Bmap.Spec.empty := by
    funext k
    simp [hlook, lookup, Bmap.Spec.empty, List.getD_eq_getElem?_getD]
    rw [List.getElem?_replicate]
    split <;> simp
  have hlen0 : (Bmap.hinit m).length = m := by simp [Bmap.hinit]
  have base := fun (k : List Byte) => hrun_bucket hc k m pre (Bmap.hinit m) (List.replicate m []) 0 (fun _ => 0) ((c.hash k).toNat % m)
    (Bmap.hinit_view hc h0 hm) (by intro S hS; rw [List.eq_of_mem_replicate hS]; simp) (by omega) (by simpa using mul_lt_of hk (by omega))
    (by simpa using mul_lt_of hv (by omega)) (fun o ho => hop o (by simp [ho])) (by rw [hlen0]; exact Nat.mod_lt _ h0) hlen0 rfl
  obtain ⟨s, rs, Ss, r1, _, r2, r3, r4, hl, _⟩ := base []
  simp only [Nat.zero_add] at r4
  rw [he] at r2
  rw [hlen0] at hl
  have next := fun (k : List Byte) (j : Nat) (hj : j = (c.hash k).toNat % m) => hrun_bucket hc k m ops s.h Ss pre.length s.buf j
    r3 r4 h32 hk hv (fun o ho => hop o (by simp [ho])) (by rw [hl, hj]; exact Nat.mod_lt _ h0) hl hj
  obtain ⟨s', rs', Ss', q1, q1', q2, q3, q4, hl', _⟩ := next [] _ rfl
  refine ⟨s, rs, _, s', rs', _, r1, r2, q1, q1', q2, fun k v hkv => ?_⟩
  have hSl : Ss.length = m := by rw [← r3.len, hl]
  have hSl' : Ss'.length = m := by rw [← q3.len, hl', hl]
  have hbj : bidx c Ss k = (c.hash k).toNat % m := by unfold bidx; rw [hSl]
  have hbj' : ∀ k, bidx c Ss' k = (c.hash k).toNat % m := by intro k; unfold bidx; rw [hSl']
  obtain ⟨j, hj⟩ : ∃ j, j = (c.hash k).toNat % m := ⟨_, rfl⟩
  obtain ⟨s2, rs2, _, e1, _, _, _, _, _, rsb, e6⟩ := next k j hj
  have hs2 : s' = s2 := by
    rw [q1] at e1
    exact congrArg Prod.fst (Except.ok.inj e1)
  subst hs2
  obtain ⟨hb, g1, g2⟩ := hgetp_bucket hc r3 r4 (by omega) (mul_lt_of hk (by omega)) k (b := j) (by rw [hj, hbj])
  have gN := fun k (e : (c.hash k).toNat % m = j) => hgetp_bucket hc q3 q4 (by omega) (mul_lt_of hk (by omega)) k (b := j) (by rw [hbj', e])
  have gA := fun k => hgetp_bucket hc q3 q4 (by omega) (mul_lt_of hk (by omega)) k (hbj' k)
  have hjS : j < Ss.length := by rw [← r3.len]; exact hb
  have hj' : j < s'.h.length := by rw [hl']; exact hb
  have hjS' : j < Ss'.length := by rw [← q3.len]; exact hj'
  have hV := r3.view j hb
  have hV' := q3.view j hj'
  have hle := r4 Ss[j] (List.getElem_mem _)
  have hkv' : lookup c.cmp Ss[j] k = some v := by
    unfold hlook at hkv
    rw [hbj, ← hj, Bmap.getD_lt hjS] at hkv
    exact hkv
  have hfl : (sameBucket c m k ops).length ≤ ops.length := List.length_filter_le _ _
  have hops : ∀ op ∈ sameBucket c m k ops, Bmap.Spec.OpOk c.toCfg op := fun o ho => hop o (by
    have := (List.mem_filter.1 ho).1
    simp [this])
  have hk1 : (2 * (Ss[j].length + (sameBucket c m k ops).length) + 4) * c.ksz < 2^64 := mul_lt_of hk (by omega)
  have hv1 : (2 * (Ss[j].length + (sameBucket c m k ops).length) + 4) * c.vsz < 2^64 := mul_lt_of hv (by omega)
  obtain ⟨p, sb, rsb', S', b1, b2, b3, _, b5, _, b7⟩ := bmap_pointer c.toCfg hc.toCfgOk s.h[j] Ss[j] hV (sameBucket c m k ops) hk1 hv1
    hops (s.buf j) k v hkv'
  have hsb : sb = ⟨s'.h[j], s'.buf j⟩ := by
    rw [b3] at e6
    exact congrArg Prod.fst (Except.ok.inj e6)
  subst hsb
  refine ⟨⟨j, p⟩, s.h[j], by rw [g1, b1], by rw [hread_bucket hb, b2], hj, List.getElem?_eq_getElem hb, ?_⟩
  rw [hread_bucket hj']
  split
  · rename_i hroom
    rw [if_pos hroom] at b7
    refine ⟨b7.imp fun _ h => h.1, fun k' hk' => ?_, fun hu => ?_⟩
    · obtain ⟨_, t1, o, t2⟩ := gA k'
      rw [t1, t2] at hk'
      cases o with
      | none => cases hk'
      | some p' =>
        have hk' := Option.some.inj (Except.ok.inj hk')
        have hjj : (c.hash k').toNat % m = j := congrArg HPtr.bucket hk'
        have hpp : p' = p := congrArg HPtr.p hk'
        obtain ⟨_, u1, o2, u2⟩ := gN k' hjj
        rw [t1, u2, t2] at u1
        cases o2 with
        | none => cases u1
        | some p2 =>
        have u1 := congrArg HPtr.p (Option.some.inj (Except.ok.inj u1))
        have u1 : p' = p2 := u1
        subst u1
        subst hpp
        have hcnt : s'.h[j].keys.count = Ss'[j].length := by rw [hV'.keys.count]; simp
        have hle' := q4 Ss'[j] (List.getElem_mem _)
        rcases Bmap.find_spec hc.toCfgOk hV' (mul_lt_of hk (by omega)) k' with ⟨i, hi, f1, f2, f3⟩ | ⟨f1, f2, f3⟩
        · refine ⟨Ss'[j][i].2, ?_, ?_⟩
          · unfold hlook
            rw [hbj', hjj, Bmap.getD_lt hjS']
            exact f3
          · simp only [getp, f1, ok_bindE] at u2
            have hp := Option.some.inj (Except.ok.inj u2)
            rw [← hp]
            unfold vread deref
            simp only
            rw [if_neg (by simp), szt_of_lt (mul_lt_of hv (by omega)), Held.tg_slot hV'.values
              (mul_lt_of hv (by rw [hV'.values.count]; simp; omega)) (i := i) (by simpa using hi)]
            simp only [List.getElem_map]; rfl
        · simp only [getp, f1, ok_bindE] at u2
          cases u2
    · obtain ⟨p2, sb2, _, _, c1, c2, c3, _⟩ := bmap_pointer_undisturbed c.toCfg hc.toCfgOk s.h[j] Ss[j] hV (sameBucket c m k ops) hk1 hv1
        hops (s.buf j) k v hkv' hroom hu
      rw [b1] at c1
      rw [b3] at c2
      cases c1
      cases c2
      obtain ⟨hb', t1, _⟩ := gN k hj.symm
      rw [t1, c3]
  · rename_i hroom
    rw [if_neg hroom] at b7
    exact b7

/-- Three buckets, keys by their first byte. The pointer to the value of 7 is one into bucket 1. Calls on the keys 2 and 3 do nothing to it;
    the insertion of 4, in the same bucket, moves the value of 4 under it. -/
example : ([[], [.insert [2, 0] [1] none none, .insert [3, 0] [2] none none, .del [2, 0]], [.insert [10, 0] [3] none none],
      [.insert [4, 0] [5] none none], [.del [7, 0]]] : List (List Bmap.Op)).map (fun ops =>
        match hrun demoHCfg ⟨Bmap.hinit 3, fun _ => 0⟩ [.insert [7, 0] [8] (some fun _ => 0) (some fun _ => 0)] with
        | .ok (s, _) => (match hgetp demoHCfg s [7, 1], hrun demoHCfg s (ops.map fun
            | .insert k v _ _ => .insert k v (some fun _ => 0) (some fun _ => 0) | o => o) with
          | .ok (some p), .ok (s', _) => (p.bucket, some (hread demoHCfg s' p)) | _, _ => (9, none))
        | .error _ => (9, none)) =
    [(1, some (.ok [8])), (1, some (.ok [8])), (1, some (.ok [8])), (1, some (.ok [5])), (1, some (.ok [8]))] ∧
    (sameBucket demoHCfg 3 [7, 1] [.insert [2, 0] [1] none none, .insert [4, 0] [2] none none, .del [2, 0]]).length = 1 := by decide +kernel

/-- C196. With `BMAP_USE_TGILIST` the pointer belongs to the key: while the key stays in the map it shows the key's value, also after
    insertions and deletions of other keys and after updates; after the deletion of the key it shows, for ever, the value it had then, even
    if the key is inserted again. Only the growth of the array of values ends this. -/
theorem bmap_tgilist_pointer (c : Cfg) (hc : CfgOk c) (b : BMI) (S : List (List Byte × List Byte)) (idxs : List Nat) (vals : List (List Byte))
    (h : Ibmap.Spec.View c b S idxs vals) (ops : List Ibmap.Op) (hk : (2 * (S.length + ops.length) + 4) * c.ksz < 2^64)
    (hv : (2 * (vals.length + ops.length) + 4) * c.vsz < 2^64) (hlt : vals.length + ops.length ≤ 2^32)
    (hop : ∀ op ∈ ops, Ibmap.Spec.OpOk c op) (n : Nat) (k v : List Byte) (hkv : lookup c.cmp S k = some v) :
    ∃ p s rs S' idxs' vals', xgetp c ⟨b, n⟩ k = .ok (some p) ∧ xread c ⟨b, n⟩ p = .ok v ∧ xrun c ⟨b, n⟩ ops = .ok (s, rs) ∧
      Ibmap.run c b ops = .ok (s.b, rs) ∧ Ibmap.Spec.View c s.b S' idxs' vals' ∧
      Ibmap.Spec.Steps c.cmp (lookup c.cmp S) ops (lookup c.cmp S') rs ∧
      (xread c s p = if s.b.values.items.capa = b.values.items.capa then .ok (Entry.follow c.cmp k ⟨true, v⟩ ops).val else .error .freed) ∧
      (vals.length + inserts ops ≤ b.values.items.capa → s.b.values.items.capa = b.values.items.capa) ∧
      ((Entry.follow c.cmp k ⟨true, v⟩ ops).here = true → lookup c.cmp S' k = some (Entry.follow c.cmp k ⟨true, v⟩ ops).val ∧
        (s.b.values.items.capa = b.values.items.capa → xgetp c s k = .ok (some p) ∧
          ∀ x, x.length = c.vsz → ∃ s', xwrite s p x = .ok s' ∧ ∀ k', Ibmap.get c s'.b k' = .ok (upd c.cmp (lookup c.cmp S') k x k'))) := by
  have hf := h.fit
  have hle := h.le
  have hlen := h.len
  rcases Ibmap.find_spec hc h (by rw [h.kcount]; exact mul_lt_of hk (by omega)) k with ⟨i, hi, f1, f2, f3⟩ | ⟨_, _, f3⟩
  · have hp : i < idxs.length := by omega
    have hq := h.lt _ (List.getElem_mem hp)
    have hve : v = S[i].2 := by rw [hkv] at f3; exact Option.some.inj f3
    have hval : ∀ {S : List (List Byte × List Byte)} {idxs : List Nat} {vals : List (List Byte)} {b : BMI}, Ibmap.Spec.View c b S idxs vals →
        ∀ {j : Nat} (hj : j < S.length) (hj' : j < idxs.length) (hq : idxs[j] < vals.length), S[j].2 = vals[idxs[j]] := by
      intro S idxs vals b h j hj hj' hq
      have e : (S.map Prod.snd)[j]? = (idxs.map fun i => vals.getD i [])[j]? := by rw [h.slots]
      rw [List.getElem?_map, List.getElem?_map, List.getElem?_eq_getElem hj, List.getElem?_eq_getElem hj'] at e
      simp only [Option.map_some, Option.some.injEq] at e
      rw [e]
      simp [List.getD_eq_getElem?_getD, hq]
    have hvq := hval h hi hp hq
    have hat : At c k ⟨true, v⟩ idxs[i] S idxs vals :=
      ⟨by rw [List.getElem?_eq_getElem hq, hve, hvq], by simp only [if_true]; exact ⟨i, hi, List.getElem?_eq_getElem hp, f2⟩⟩
    generalize hq0 : idxs[i] = q at hq hvq hat
    have hz : szt (q * c.vsz) = q * c.vsz := szt_of_lt (mul_lt_of hv (by omega))
    have hvq' : S[i].2 = vals[q] := by rw [hvq]
    obtain ⟨s, rs, S', i2, v2, r1, r1', r2, r3, r4, r5, ⟨a1, a2⟩, r7, r8, r9, r10⟩ := xrun_entry hc k ops b S idxs vals n q _ h hk hv hlt hop hat
    have hq2 : q < v2.length := (List.getElem?_eq_some_iff.1 a1).1
    have hb0 : b.values.items.count * c.vsz < 2^64 := mul_lt_of hv (by have := h.items.count; omega)
    have hb1 : s.b.values.items.count * c.vsz < 2^64 := mul_lt_of hv (by have := r3.items.count; omega)
    refine ⟨⟨n, szt (q * c.vsz)⟩, s, rs, S', i2, v2, ?_, ?_, r1, r1', r3, r2, ?_, ?_, ?_⟩
    · simp only [xgetp, f1, ok_bindE]
      rw [Tglist.iidx_spec h.irep (by rw [h.icount, show Ibmap.W = 4 from rfl]; omega) hp, ok_bindE, hq0]; rfl
    · unfold xread deref
      simp only
      rw [if_neg (by simp), hz, Held.tg_slot h.items hb0 hq, hve, hvq']; rfl
    · unfold xread deref
      simp only
      by_cases e : s.b.values.items.capa = b.values.items.capa
      · rw [if_neg (by simp [r9.2 e]), if_pos e, hz, Held.tg_slot r3.items hb1 hq2, (List.getElem?_eq_some_iff.1 a1).2]; rfl
      · rw [if_pos (fun h => e (r9.1 h.symm)), if_neg e]
    · intro hroom
      exact r10 (by rw [h.items.count]; exact hroom)
    · intro hh
      rw [if_pos hh] at a2
      obtain ⟨j, hj, b1, b2⟩ := a2
      obtain ⟨hj', b1'⟩ := List.getElem?_eq_some_iff.1 b1
      have hf2 := r3.fit
      have hle2 := r3.le
      have hk2 : s.b.keys.count * c.ksz < 2^64 := by rw [r3.kcount]; exact mul_lt_of hk (by omega)
      have hfind : Ibmap.find c s.b k = .ok (some j) ∧ lookup c.cmp S' k = some S'[j].2 := by
        rcases Ibmap.find_spec hc r3 hk2 k with ⟨m, hm, e1, e2, e3⟩ | ⟨_, e2, _⟩
        · have := same_key hc r3.sorted hm hj e2 b2
          subst this
          exact ⟨e1, e3⟩
        · exact absurd b2 (e2 _ (List.getElem_mem hj))
      have hlook : lookup c.cmp S' k = some (Entry.follow c.cmp k ⟨true, v⟩ ops).val := by
        have hqj : i2[j] < v2.length := by rw [b1']; exact hq2
        rw [hfind.2, hval r3 hj hj' hqj]
        rw [← a1, ← b1', List.getElem?_eq_getElem hqj]
      have hidx : Tglist.iidx Ibmap.W s.b.values j = .ok q := by
        rw [Tglist.iidx_spec r3.irep (by rw [r3.icount, show Ibmap.W = 4 from rfl]; omega) hj', b1']
      refine ⟨hlook, fun e => ⟨?_, fun x hx => ?_⟩⟩
      · simp only [xgetp, hfind.1, ok_bindE]
        rw [hidx, ok_bindE, r9.2 e]; rfl
      · obtain ⟨vs, s1, s2, s3⟩ := xset_view hc r3 (mul_lt_of hv (by omega)) hj hj' x hx
        unfold Tglist.iset at s1
        rw [hidx, ok_bindE] at s1
        unfold Tglist.set at s1
        rw [rdN_all hx, ok_bindE] at s1
        obtain ⟨⟨t, r⟩, s4, s1⟩ := Frame.bind_ok.1 s1
        obtain ⟨it, s5, s4⟩ := Frame.bind_ok.1 s4
        cases s4
        have hvs : vs = { s.b.values with items := { s.b.values.items with items := it } } :=
          (congrArg Prod.fst (Except.ok.inj s1)).symm
        refine ⟨{ s with b := ⟨s.b.keys, vs⟩ }, ?_, fun k' => ?_⟩
        · unfold xwrite assign
          simp only
          rw [if_neg (by simp [r9.2 e]), s5, hvs]; rfl
        · rw [Ibmap.get_spec hc s2 (by simpa using mul_lt_of hk (by omega)) (by simpa using mul_lt_of hv (by omega)) k', s3,
            Bmap.upd_congr hc.cmp b2]
  · rw [hkv] at f3; cases f3

/-- The same map with indexed values: the pointer follows the key 5 through the deletion of 3 and the insertion of 4, shows its updates, and
    keeps the old value when 5 is deleted and inserted again. An insertion that fails for want of memory for the index has still made the
    array of values grow. -/
example : ([[], [.del [3, 0], .insert [4, 0] [6] none none none], [.insert [4, 0] [6] none none none, .insert [5, 2] [9] none none none],
      [.del [5, 0], .insert [5, 0] [9] none none none],
      [.insert [1, 0] [1] none none none, .insert [2, 0] [2] none none none, .insert [4, 0] [6] (some fun _ => 0) none (some fun _ => 0)]] :
      List (List Ibmap.Op)).map (fun ops =>
        match xrun demoCfg ⟨⟨⟨2, 4, [3, 0, 5, 0, 0, 0, 0, 0]⟩, ⟨⟨2, 4, [0, 0, 0, 0, 1, 0, 0, 0, 0, 0, 0, 0, 0, 0, 0, 0]⟩, ⟨2, 4, [7, 8, 0, 0]⟩⟩⟩, 3⟩ ops with
        | .ok (s, _) => (xread demoCfg s ⟨3, 1⟩, s.b.keys.count) | .error e => (.error (.ub e), 0)) =
    [(.ok [8], 2), (.ok [8], 2), (.ok [9], 3), (.ok [8], 2), (.error .freed, 4)] ∧
    xgetp demoCfg ⟨⟨⟨2, 4, [3, 0, 5, 0, 0, 0, 0, 0]⟩, ⟨⟨2, 4, [0, 0, 0, 0, 1, 0, 0, 0, 0, 0, 0, 0, 0, 0, 0, 0]⟩, ⟨2, 4, [7, 8, 0, 0]⟩⟩⟩, 3⟩ [5, 1] =
      .ok (some ⟨3, 1⟩) ∧
    Entry.follow demoCmp [5, 1] ⟨true, [8]⟩ [.insert [4, 0] [6] none none none, .insert [5, 2] [9] none none none] = ⟨true, [9]⟩ ∧
    Entry.follow demoCmp [5, 1] ⟨true, [8]⟩ [.del [5, 0], .insert [5, 0] [9] none none none] = ⟨false, [8]⟩ := by decide +kernel

/-- The hypotheses of the theorem hold for it. -/
example : Ibmap.Spec.View demoCfg
    ⟨⟨2, 4, [3, 0, 5, 0, 0, 0, 0, 0]⟩, ⟨⟨2, 4, [0, 0, 0, 0, 1, 0, 0, 0, 0, 0, 0, 0, 0, 0, 0, 0]⟩, ⟨2, 4, [7, 8, 0, 0]⟩⟩⟩
    [([3, 0], [7]), ([5, 0], [8])] [0, 1] [[7], [8]] :=
  ⟨⟨by decide, rfl, by simp [demoCfg], by simp, [0, 0, 0, 0], rfl, rfl⟩,
   ⟨by decide, rfl, by decide, by decide, [0, 0, 0, 0, 0, 0, 0, 0], by decide, rfl⟩,
   ⟨by decide, rfl, by simp [demoCfg], by simp, [0, 0], rfl, rfl⟩, by decide, by decide, by decide, rfl, by decide +kernel⟩

end Ulz.Props
