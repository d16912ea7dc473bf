import Verif.Proofs.Life
/-! C132-C135: the memory of lists, stringptr_replace and filelist_search. -/
namespace Ulz.Props
open Ulz.Life
open Ulz.Stringptr (SP)
open Ulz.Stringptr.Spec (join Split HoldsAll)
open Ulz.Filelist.Spec (dots Name Entries)

/-! ### C132 -/

/-- C132: whatever is done with a list and whichever allocations fail, freeing the list is permitted and leaves exactly the blocks that were allocated
    before the list was made. -/
theorem sblist_lifetime_frees (ok : Nat → Bool) (m : Mem) (hm : Fresh m) (block : Nat) (hb : 0 < block) (ops : List Op) :
    ∃ m', lifetime ok m block ops = .ok m' ∧ m'.live.Perm m.live := by
  unfold lifetime
  rcases lnew_spec ok hb hm with ⟨_, m1, l1, e1, I1, _⟩ | ⟨_, e1⟩
  · obtain ⟨m2, l2, e2, I2⟩ := run_spec ok ops I1
    obtain ⟨m3, e3, p3, _⟩ := lfree_spec I2
    rw [e1]
    simp only [e2, ok_bind, e3]
    exact ⟨m3, rfl, p3⟩
  · rw [e1]
    exact ⟨_, rfl, List.Perm.refl _⟩

/-- C132: until then the list owns its object and at most one block more, and nothing else has changed. -/
theorem sblist_blocks (ok : Nat → Bool) (m : Mem) (hm : Fresh m) (block : Nat) (hb : 0 < block) (ops : List Op) (m1 : Mem) (l1 : L)
    (h : lnew ok m block = (m1, some l1)) :
    ∃ m' l' a, run ok m1 l1 ops = .ok (m', l') ∧ a.length ≤ 1 ∧ m'.live.Perm (l'.hd :: a ++ m.live) := by
  rcases lnew_spec ok hb hm with ⟨_, m1', l1', e1, I1, _⟩ | ⟨_, e1⟩
  · rw [e1] at h
    simp only [Prod.mk.injEq, Option.some.injEq] at h
    obtain ⟨rfl, rfl⟩ := h
    obtain ⟨m2, l2, e2, I2⟩ := run_spec ok ops I1
    refine ⟨m2, l2, arr l2, e2, ?_, I2.perm⟩
    unfold arr
    split <;> simp
  · rw [e1] at h
    simp at h

/-- C132: freeing the list again is an error. -/
theorem sblist_free_twice (ok : Nat → Bool) (m : Mem) (hm : Fresh m) (block : Nat) (hb : 0 < block) (ops : List Op) (m1 : Mem) (l1 : L)
    (h : lnew ok m block = (m1, some l1)) (m2 : Mem) (l2 : L) (h2 : run ok m1 l1 ops = .ok (m2, l2)) (m3 : Mem) (h3 : lfree m2 (some l2) = .ok m3) :
    lfree m3 (some l2) = .error .badFree := by
  rcases lnew_spec ok hb hm with ⟨_, m1', l1', e1, I1, _⟩ | ⟨_, e1⟩
  · rw [e1] at h
    simp only [Prod.mk.injEq, Option.some.injEq] at h
    obtain ⟨rfl, rfl⟩ := h
    obtain ⟨m2', l2', e2, I2⟩ := run_spec ok ops I1
    rw [e2] at h2
    simp only [Except.ok.injEq, Prod.mk.injEq] at h2
    obtain ⟨rfl, rfl⟩ := h2
    obtain ⟨m3', e3, p3, _⟩ := lfree_spec I2
    rw [e3] at h3
    simp only [Except.ok.injEq] at h3
    obtain rfl := h3
    have hnd := I2.perm.nodup_iff.1 I2.fresh.nodup
    rw [own_eq, List.cons_append] at hnd
    have : l2'.hd ∉ m3'.live := fun h => (List.nodup_cons.1 hnd).1 (List.mem_append_right _ (p3.mem_iff.1 h))
    unfold lfree lfreeItems
    simp only
    rw [if_pos this]
    rfl
  · rw [e1] at h
    simp at h

/-- C132: the same for hash lists. -/
theorem hashlist_lifetime_frees (ok : Nat → Bool) (m : Mem) (hm : Fresh m) (bucketcount : Nat) (hb : 0 < bucketcount) (xs : List (BitVec 32)) :
    ∃ m', hlifetime ok m bucketcount xs = .ok m' ∧ m'.live.Perm m.live := by
  unfold hlifetime
  rcases hnew_spec ok bucketcount hm with ⟨m1, e1, h1, _⟩ | ⟨m1, h, e1, I1, hbk⟩
  · rw [e1]
    exact ⟨m1, rfl, by rw [h1]⟩
  · obtain ⟨m2, h2, e2, I2⟩ := hrun_spec ok xs I1 (by rw [hbk, List.length_replicate]; omega)
    obtain ⟨m3, e3, p3⟩ := hfree_spec I2
    rw [e1]
    simp only [ok_bind, e2]
    exact ⟨m3, e3, p3⟩

-- three items with one failed growth in between, one removed
example : lifetime (fun n => n ≠ 2) ⟨[], 0⟩ 1 [.add, .add, .add, .del, .add] = .ok ⟨[], 4⟩ := by decide
example : (do
    let (m, l) ← run (fun _ => true) ⟨[1], 1⟩ ⟨1, 0, 0, 0, 1⟩ [.add, .add]
    let m ← lfree m (some l)
    lfree m (some l)) = .error .badFree := by decide
example : hlifetime (fun n => n ≠ 5) ⟨[], 0⟩ 2 [0, 1, 2, 3, 4] = .ok ⟨[], 7⟩ := by decide

/-! ### C133, C134 -/

/-- C133: if all allocations succeed, stringptr_replace leaves two blocks: its result and one that nobody can free. -/
theorem stringptr_replace_leaks (ok : Nat → Bool) (hok : ∀ n, ok n = true) (f : Nat → Byte) (s junk d dj w wj : List Byte) (x : Byte) (fuel : Nat) (m : Mem)
    (hm : Fresh m) (hd : d ≠ []) (hf : s.length + 2 ≤ fuel) (pcs : List (List Byte)) (hs : Split d s pcs)
    (hb : s.length + d.length + (join w pcs).length + 17 < 2^64) :
    ∃ buf' m' p lost, replace ok f ⟨s ++ x :: junk, s.length⟩ ⟨d ++ dj, d.length⟩ ⟨w ++ wj, w.length⟩ fuel m =
      .ok (buf', m', some (p, ⟨join w pcs ++ [0], (join w pcs).length⟩)) ∧ m'.live.Perm (p :: lost :: m.live) := by
  rcases replace_mem ok f (dj := dj) (wj := wj) (junk := junk) (x := x) hd hf hs hb (Or.inl hok) hm with ⟨h, _⟩ | ⟨_, kept, hdr, a, _, hk, ha, hr⟩
  · rw [hok] at h; cases h
  · obtain rfl := hk hok
    rw [if_neg (Stringptr.split_ne hs)] at ha
    obtain ⟨q, rfl⟩ := List.length_eq_one_iff.1 ha
    rcases hr with ⟨_, _, _, _, n, hn⟩ | ⟨buf', m', p, e, hp⟩
    · rw [hok] at hn; cases hn
    · refine ⟨buf', m', p, q, ?_, hp⟩
      rw [e, if_neg (Stringptr.split_ne hs), Stringptr.split_join hs, Nat.sub_self]
      simp

/-- C133: when the first allocation fails, nothing is left. -/
theorem stringptr_replace_refused_first (ok : Nat → Bool) (f : Nat → Byte) (s what whit : SP) (fuel : Nat) (m : Mem) (h : ok m.next = false) :
    ∃ m', replace ok f s what whit fuel m = .ok (s.buf, m', none) ∧ m'.live = m.live := by
  unfold replace lnew alloc
  rw [h]
  exact ⟨_, rfl, rfl⟩

/-- C133, C134: in all other cases some of the pieces are kept. Either NULL is returned, and the list and its items stay allocated; or the
    result, as long as it would be if the other pieces had only lost their separators, is the kept pieces joined by the replacement followed by
    bytes that nobody has initialised, and the items stay allocated. -/
theorem stringptr_replace_memory (ok : Nat → Bool) (f : Nat → Byte) (s junk d dj w wj : List Byte) (x : Byte) (fuel : Nat) (m : Mem)
    (hm : Fresh m) (hd : d ≠ []) (hf : s.length + 2 ≤ fuel) (pcs : List (List Byte)) (hs : Split d s pcs)
    (hb : s.length + d.length + (join w pcs).length + 17 < 2^64) (hw : w.length ≤ s.length + d.length) (h1 : ok m.next = true) :
    ∃ kept lost, kept.Sublist pcs ∧ ((∀ n, ok n = true) → kept = pcs) ∧ lost.length = (if kept = [] then 0 else 1) ∧
      ((∃ buf' m' hdr, replace ok f ⟨s ++ x :: junk, s.length⟩ ⟨d ++ dj, d.length⟩ ⟨w ++ wj, w.length⟩ fuel m = .ok (buf', m', none) ∧
          m'.live.Perm (hdr :: lost ++ m.live) ∧ ∃ n, ok n = false) ∨
       (∃ buf' m' p garbage, replace ok f ⟨s ++ x :: junk, s.length⟩ ⟨d ++ dj, d.length⟩ ⟨w ++ wj, w.length⟩ fuel m =
            .ok (buf', m', some (p, ⟨join w kept ++ garbage ++ [0], (join w kept ++ garbage).length⟩)) ∧
          garbage.length = (if kept = [] then s.length + d.length - w.length else s.length - (join d kept).length) ∧
          (∀ i (h : i < garbage.length), garbage[i] = f (16 + (join w kept).length + i)) ∧ m'.live.Perm (p :: lost ++ m.live))) := by
  rcases replace_mem ok f (dj := dj) (wj := wj) (junk := junk) (x := x) hd hf hs hb (Or.inr hw) hm with ⟨h, _⟩ | ⟨_, kept, hdr, a, hsub, hk, ha, hr⟩
  · rw [h1] at h; cases h
  · refine ⟨kept, a, hsub, hk, ha, ?_⟩
    rcases hr with ⟨buf', m', e, hp, hn⟩ | ⟨buf', m', p, e, hp⟩
    · exact Or.inl ⟨buf', m', hdr, e, hp, hn⟩
    · right
      refine ⟨buf', m', p, (List.range (if kept = [] then s.length + d.length - w.length else s.length - (join d kept).length)).map
            (fun i => f (16 + (join w kept).length + i)), e.trans ?_, ?_, ?_, hp⟩
      · rw [List.length_append, List.length_map, List.length_range]
      · rw [List.length_map, List.length_range]
      · intro i h
        rw [List.getElem_map, List.getElem_range]

/-- C134: there are such bytes whenever a piece is missing but not all of them. -/
theorem stringptr_replace_uninitialised (s d : List Byte) (hd : d ≠ []) (pcs kept : List (List Byte)) (hs : Split d s pcs) (h : kept.Sublist pcs)
    (h0 : kept ≠ []) (hne : kept ≠ pcs) : 0 < s.length - (join d kept).length := by
  have := kept_short hd hs h h0 hne
  omega

/-- C134: and this happens: "b" and two such bytes for "a,b" when the first growth of the list fails but not the second; one block is lost. -/
theorem stringptr_replace_uninitialised_case (f : Nat → Byte) :
    replace (fun n => n ≠ 1) f ⟨bytes! "a,b" ++ [0], 3⟩ ⟨bytes! "," ++ [0], 1⟩ ⟨bytes! ";" ++ [0], 1⟩ 6 ⟨[], 0⟩ =
      .ok (bytes! "a" ++ [0] ++ bytes! "b" ++ [0], ⟨[4, 3], 4⟩, some (4, ⟨bytes! "b" ++ [f 17, f 18, 0], 3⟩)) := by
  rfl

example : Fresh ⟨[1], 1⟩ := ⟨by decide, by decide⟩
example : Split (bytes! ",") (bytes! "a,b") [bytes! "a", bytes! "b"] := 
  Split.cons (p := bytes! "a") (by decide) (Split.last (by decide))
-- NULL, the list and its items lost
example : replace (fun n => n ≠ 2) (fun _ => 0) ⟨bytes! "a,b" ++ [0], 3⟩ ⟨bytes! "," ++ [0], 1⟩ ⟨bytes! ";" ++ [0], 1⟩ 6 ⟨[], 0⟩ =
    .ok (bytes! "a" ++ [0] ++ bytes! "b" ++ [0], ⟨[2, 1], 3⟩, none) := by rfl

/-! ### C135 -/

/-- C135: what a search leaves allocated, `g` being the block of glob. It succeeds, and filelist_free gives everything back. Or it fails because the list could
    not be made: everything has been given back. Or because a path has no name: the list is still allocated, but filelist_free will release it. Or because a
    growth of the list failed: the list has been freed but not its items, if there were any already; filelist_free would free the list again. -/
theorem filelist_search_blocks (ok : Nat → Bool) (flags : BitVec 32) (ps : List (List Byte)) (hps : ∀ p ∈ ps, 0 ∉ p) (hne : ps ≠ []) (m : Mem) (hm : Fresh m)
    (g : Nat) (base : List Nat) (hg : m.live.Perm (g :: base)) :
    ∃ r m' fl files, search ok flags (ps.map (· ++ [0])) m g = .ok (r, m', fl, files) ∧
      ((r = 0 ∧ ∃ m'', filelist_free m' g fl = .ok m'' ∧ m''.live.Perm base) ∨
       (r = -1 ∧ ok m.next = false ∧ m'.live.Perm base ∧ ∃ m'', filelist_free m' g fl = .ok m'' ∧ m''.live.Perm base) ∨
       (r = -1 ∧ (∃ p ∈ ps, p ≠ [] ∧ ¬ ∃ n, Name flags p n) ∧ (∃ hdr lost, lost.length ≤ 1 ∧ m'.live.Perm (hdr :: lost ++ base)) ∧
          ∃ m'', filelist_free m' g fl = .ok m'' ∧ m''.live.Perm base) ∨
       (r = -1 ∧ (∃ n, ok n = false) ∧ (∃ lost, lost.length ≤ 1 ∧ (dots flags = [] → lost = []) ∧ m'.live.Perm (lost ++ base)) ∧
          filelist_free m' g fl = .error .badFree)) := by
  have hnd := hg.nodup_iff.1 hm.nodup
  have hgb : g ∉ base := (List.nodup_cons.1 hnd).1
  have her : base.erase g = base := List.erase_of_not_mem hgb
  have harr : ∀ l, (arr l).length ≤ 1 := fun l => by unfold arr; split <;> simp
  have hb : ∀ p ∈ ps.map (· ++ [0]), ∃ f, Filelist.body flags p = .ok f := by
    intro p hp
    obtain ⟨q, hq, rfl⟩ := List.mem_map.1 hp
    exact body_total flags q [] (hps q hq)
  rcases search_sim ok flags _ m g base hm hg (by simpa using hne) hb with ⟨h1, m', e, hp, _⟩ | ⟨h1, grow, r, e, m', l, _, _, hs, hf, k1, k2, k3, k4, hr⟩
  · refine ⟨_, _, _, _, e, Or.inr (Or.inl ⟨rfl, h1, hp, _, rfl, ?_⟩)⟩
    have := hp.erase g
    rwa [her] at this
  · refine ⟨_, _, _, _, hs, ?_⟩
    rcases hr with ⟨_, h0, hp⟩ | ⟨_, h0, hp, hx⟩ | ⟨_, h0, hp, hh, hn, hd⟩
    · left
      obtain ⟨m'', e2, p2⟩ := search_free (g := g) hf k1 k2 k3 k4 hp fun live h => h.erase g
      rw [List.erase_cons_head] at p2
      exact ⟨h0, m'', e2, p2⟩
    · right; right; left
      obtain ⟨m'', e2, p2⟩ := search_free (g := g) hf k1 k2 k3 k4 hp fun live h => h.erase g
      rw [her] at p2
      refine ⟨h0, ?_, ⟨l.hd, arr l, harr l, hp⟩, m'', e2, p2⟩
      obtain ⟨p, hp', hb'⟩ := hx
      obtain ⟨q, hq, rfl⟩ := List.mem_map.1 hp'
      refine ⟨q, hq, ?_, ?_⟩
      · rintro rfl
        cases hb'
      · rintro ⟨n, hn⟩
        have hq0 : q ≠ [] := by rintro rfl; cases hb'
        obtain ⟨tl, e'⟩ := Filelist.body_name flags q n [] (hps q hq) hq0 hn
        rw [e'] at hb'
        split at hb' <;> cases hb'
    · right; right; right
      refine ⟨h0, hn, ⟨arr l, harr l, ?_, hp⟩, ?_⟩
      · intro hd0
        obtain ⟨_, _, _, _, h4⟩ := Filelist.literals_spec flags grow
        rcases hd with h | h
        · exact h
        · rw [h4, hd0] at h
          simp at h
      · unfold filelist_free lfree lfreeItems
        simp only
        rw [if_pos hh]
        rfl

/-- C135: without failures of memory the search succeeds, with the names found, if all paths have one. -/
theorem filelist_search_blocks_success (ok : Nat → Bool) (hok : ∀ n, ok n = true) (flags : BitVec 32) (ps ns : List (List Byte)) (hps : ∀ p ∈ ps, 0 ∉ p) (hne : ps ≠ [])
    (he : Entries flags ps ns) (m : Mem) (hm : Fresh m) (g : Nat) (base : List Nat) (hg : m.live.Perm (g :: base)) :
    ∃ m' fl files, search ok flags (ps.map (· ++ [0])) m g = .ok (0, m', fl, files) ∧ HoldsAll files (dots flags ++ ns) ∧
      ∃ m'', filelist_free m' g fl = .ok m'' ∧ m''.live.Perm base := by
  have hb : ∀ p ∈ ps.map (· ++ [0]), ∃ f, Filelist.body flags p = .ok f := by
    intro p hp
    obtain ⟨q, hq, rfl⟩ := List.mem_map.1 hp
    exact body_total flags q [] (hps q hq)
  rcases search_sim ok flags _ m g base hm hg (by simpa using hne) hb with ⟨h1, _⟩ | ⟨h1, grow, r, e, m', l, hgr, hpl, hs, hf, k1, k2, k3, k4, hr⟩
  · rw [hok] at h1; cases h1
  obtain ⟨fs, f1, _, f2, f3⟩ := Filelist.literals_spec flags grow
  rw [f2 (hgr hok)] at f1
  rcases Filelist.pathLoop_spec flags grow he hps (Filelist.literals flags grow).1 _ _ f1 with ⟨files, h3, h4, _⟩ | ⟨_, i, _, h4⟩
  · rw [h3] at hpl
    cases hpl
    refine ⟨m', _, _, hs, h4, ?_⟩
    rcases hr with ⟨_, h0, hp⟩ | ⟨_, h0, _⟩ | ⟨_, h0, _⟩
    · obtain ⟨m'', e2, p2⟩ := search_free (g := g) hf k1 k2 k3 k4 hp fun live h => h.erase g
      rw [List.erase_cons_head] at p2
      exact ⟨m'', e2, p2⟩
    · exact absurd h0 (by simp)
    · exact absurd h0 (by simp)
  · rw [hgr hok] at h4; cases h4

/-- C135: the leak happens: "./" asked for, one path found, and no memory for the second growth. -/
theorem filelist_search_leaks :
    ∃ fl, search (fun n => n ≠ 3) 1 [bytes! "./a" ++ [0]] ⟨[1], 1⟩ 1 = .ok (-1, ⟨[3], 4⟩, fl, []) ∧ filelist_free ⟨[3], 4⟩ 1 fl = .error .badFree :=
  ⟨some ⟨2, 3, 1, 1, 1⟩, by decide +kernel, by decide⟩

end Ulz.Props
