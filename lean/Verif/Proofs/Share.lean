import Verif.Proofs.Hbmap
import Verif.Proofs.Mapptr
import Verif.Spec.Share
namespace Ulz.Share
open Spec
open Ulz.Bmap (BM Cfg HCfg)
open Ulz.Bmap.Spec (CfgOk View)

theorem upd_self {α : Type} (f : Nat → α) (t : Nat) (v : α) : upd f t v t = v := by simp [upd]

theorem upd_ne {α : Type} (f : Nat → α) {t u : Nat} (v : α) (h : u ≠ t) : upd f t v u = f u := by simp [upd, h]

theorem find_place {c : Cfg} (hc : CfgOk c) {b S} (h : View c b S) (hb : b.keys.count * c.ksz < 2^64) (k : List Byte) :
    Bmap.find c b k = .ok (place c.cmp S k) := by
  rcases Bmap.find_spec hc h hb k with ⟨i, hi, f1, f2, _⟩ | ⟨f1, f2, _⟩
  · rw [f1]
    congr 1
    symm
    unfold place
    rw [List.findIdx?_eq_some_iff_getElem]
    refine ⟨hi, by simpa using f2, fun j hj => ?_⟩
    have hj' : j < S.length := Nat.lt_trans hj hi
    have : ¬ c.cmp k S[j].1 = 0 := fun e => by
      have := Mapptr.same_key hc h.sorted hj' hi e f2
      omega
    simpa using this
  · rw [f1]
    congr 1
    symm
    unfold place
    rw [List.findIdx?_eq_none_iff]
    intro e he
    simpa using f2 e he

theorem result_answer (cmp : List Byte → List Byte → Int) (S : List (List Byte × List Byte)) (op : LookOp) (k : List Byte) :
    result op (place cmp S k) = answer cmp S op k := by cases op <;> rfl

theorem run_append (c : Cfg) (b : BM) : ∀ (xs ys : List Nat) (s s' : St), run c b s xs = .ok s' → run c b s (xs ++ ys) = run c b s' ys
  | [], _, s, s', h => by cases h; rfl
  | x :: xs, ys, s, s', h => by
    simp only [run] at h
    obtain ⟨s1, h1, h2⟩ := Frame.bind_ok.1 h
    simp only [List.cons_append, run, h1, ok_bindE]
    exact run_append c b xs ys s1 s' h2

theorem run_cons {c : Cfg} {b : BM} {s s' : St} {t : Nat} (h : step c b s t = .ok s') (ts : List Nat) :
    run c b s (t :: ts) = run c b s' ts := by
  simp only [run, h, ok_bindE]

/-- What holds of a thread between steps. -/
def Ok (c : Cfg) (b : BM) (S : List (List Byte × List Byte)) (tmp : Tmp) (T : Thread) : Prop :=
  match T.calls, T.pc with
  | [], pc => pc = .idle
  | _ :: _, .idle => True
  | x :: _, .named => ∃ r, look c b tmp = .ok r ∧ result x.op r = answer c.cmp S x.op x.key
  | x :: _, .found r => x.op = .get ∧ r = place c.cmp S x.key
  | x :: _, .stored r => x.op = .get ∧ r = place c.cmp S x.key ∧ ∀ i, r = some i → asIndex tmp = i

/-- Lookups that may overlap with each other. -/
def Compat (c : Cfg) (S : List (List Byte × List Byte)) (x y : Call) : Prop :=
  x.op ≠ .get ∧ y.op ≠ .get ∧ answer c.cmp S x.op x.key = answer c.cmp S x.op y.key

structure Inv (c : Cfg) (b : BM) (S : List (List Byte × List Byte)) (p : Nat → List Call) (s : St) : Prop where
  ok : ∀ t, Ok c b S s.tmp (s.th t)
  answered : Answered c.cmp S p s

theorem start_inv (c : Cfg) (b : BM) (S : List (List Byte × List Byte)) (p : Nat → List Call) (tmp : Tmp) : Inv c b S p (start p tmp) := by
  refine ⟨fun t => ?_, fun t => ⟨[], rfl, rfl⟩⟩
  simp only [start, Ok]
  split <;> simp_all

section
variable {c : Cfg} {b : BM} {S : List (List Byte × List Byte)} (hc : CfgOk c) (h : View c b S) (hb : b.keys.count * c.ksz < 2^64)
include hc h hb

theorem look_empty (hS : S = []) (tmp : Tmp) : look c b tmp = .ok none ∧ ∀ k, place c.cmp S k = none := by
  subst hS
  have h0 : b.keys.count = 0 := by rw [h.keys.count]; rfl
  refine ⟨?_, fun k => by simp [place]⟩
  cases tmp with
  | key k a => exact find_place hc h hb k
  | idx i => simp only [look, h0, if_true]; rfl

/-- A thread that does not move, when another sets `tmp`. -/
theorem Ok.other {tmp tmp' : Tmp} {T : Thread} (hT : Ok c b S tmp T)
    (hi : S = [] ∨ tmp' = tmp ∨ T.pc = .idle ∨ ∃ x cs y, T.calls = x :: cs ∧ Compat c S x y ∧ tmp' = .key y.key y.addr) :
    Ok c b S tmp' T := by
  rcases hi with hS | rfl | hp | ⟨x, cs, y, hx, ⟨c1, c2, c3⟩, rfl⟩
  · obtain ⟨l1, l2⟩ := look_empty hc h hb hS tmp'
    unfold Ok at hT ⊢
    split at hT
    · exact hT
    · trivial
    · rename_i x cs _ _
      refine ⟨none, l1, ?_⟩
      rw [← l2 x.key, result_answer]
    · exact hT
    · refine ⟨hT.1, hT.2.1, fun i hi => ?_⟩
      rw [hT.2.1, l2] at hi
      cases hi
  · exact hT
  · unfold Ok at hT ⊢
    rw [hp] at hT ⊢
    split <;> simp_all
  · unfold Ok at hT ⊢
    rw [hx] at hT ⊢
    cases hpc : T.pc with
    | idle => trivial
    | named => exact ⟨_, find_place hc h hb y.key, by rw [result_answer, c3]⟩
    | found r => rw [hpc] at hT; exact absurd hT.1 c1
    | stored r => rw [hpc] at hT; exact absurd hT.1 c1

theorem step_inv {p : Nat → List Call} {s : St} (hs : Inv c b S p s) (t : Nat)
    (hi : S = [] ∨ ∀ u, u ≠ t → (s.th u).pc = .idle ∨ ∀ x cs y ds, (s.th u).calls = x :: cs → (s.th t).calls = y :: ds → Compat c S x y) :
    ∃ s', step c b s t = .ok s' ∧ Inv c b S p s' := by
  have ht := hs.ok t
  -- the other threads after the step
  have others : ∀ (tmp' : Tmp) (y : Call) (ds : List Call), (s.th t).calls = y :: ds →
      (tmp' = s.tmp ∨ tmp' = .key y.key y.addr ∨ y.op = .get) → ∀ u, u ≠ t → Ok c b S tmp' (s.th u) := by
    intro tmp' y ds hy ht' u hu
    apply (hs.ok u).other hc h hb
    rcases hi with hi | hi
    · exact .inl hi
    · rcases ht' with e | e | e
      · exact .inr (.inl e)
      · rcases hi u hu with hi | hi
        · exact .inr (.inr (.inl hi))
        · cases hcalls : (s.th u).calls with
          | nil =>
            have := hs.ok u
            unfold Ok at this
            rw [hcalls] at this
            exact .inr (.inr (.inl this))
          | cons x cs => exact .inr (.inr (.inr ⟨x, cs, y, rfl, hi x cs y ds hcalls hy, e⟩))
      · rcases hi u hu with hi | hi
        · exact .inr (.inr (.inl hi))
        · cases hcalls : (s.th u).calls with
          | nil =>
            have := hs.ok u
            unfold Ok at this
            rw [hcalls] at this
            exact .inr (.inr (.inl this))
          | cons x cs => exact absurd e (hi x cs y ds hcalls hy).2.1
  -- assembling
  have build : ∀ (tmp' : Tmp) (T' : Thread) (y : Call) (ds : List Call), (s.th t).calls = y :: ds →
      (tmp' = s.tmp ∨ tmp' = .key y.key y.addr ∨ y.op = .get) → Ok c b S tmp' T' →
      ((T'.calls = y :: ds ∧ T'.out = (s.th t).out) ∨ (T'.calls = ds ∧ T'.out = (s.th t).out ++ [answer c.cmp S y.op y.key])) →
      Inv c b S p ⟨tmp', upd s.th t T'⟩ := by
    intro tmp' T' y ds hy ht' hT' hout
    refine ⟨fun u => ?_, fun u => ?_⟩
    · show Ok c b S tmp' (upd s.th t T' u)
      by_cases e : u = t
      · subst e; rw [upd_self]; exact hT'
      · rw [upd_ne _ _ e]; exact others tmp' y ds hy ht' u e
    · show ∃ done, p u = done ++ (upd s.th t T' u).calls ∧ (upd s.th t T' u).out = done.map fun x => answer c.cmp S x.op x.key
      by_cases e : u = t
      · subst e
        rw [upd_self]
        obtain ⟨done, d1, d2⟩ := hs.answered u
        rcases hout with ⟨o1, o2⟩ | ⟨o1, o2⟩
        · exact ⟨done, by rw [d1, hy, o1], by rw [o2, d2]⟩
        · exact ⟨done ++ [y], by rw [d1, hy, o1]; simp, by rw [o2, d2]; simp⟩
      · rw [upd_ne _ _ e]; exact hs.answered u
  have idleOk : ∀ (tmp' : Tmp) (ds : List Call) (out : List Res), Ok c b S tmp' ⟨ds, .idle, out⟩ := by
    intro tmp' ds out
    cases ds <;> simp [Ok]
  unfold step
  simp only
  cases hcalls : (s.th t).calls with
  | nil => exact ⟨s, rfl, hs⟩
  | cons y ds =>
    unfold Ok at ht
    rw [hcalls] at ht
    cases hpc : (s.th t).pc with
    | idle =>
      refine ⟨_, rfl, build _ _ y ds hcalls (.inr (.inl rfl)) ?_ (.inl ⟨rfl, rfl⟩)⟩
      unfold Ok
      simp only
      exact ⟨_, find_place hc h hb y.key, result_answer _ _ _ _⟩
    | named =>
      rw [hpc] at ht
      obtain ⟨r, r1, r2⟩ := ht
      simp only [r1, ok_bindE]
      cases hop : y.op with
      | get =>
        refine ⟨_, rfl, build _ _ y ds hcalls (.inl rfl) ?_ (.inl ⟨rfl, rfl⟩)⟩
        unfold Ok
        simp only
        refine ⟨hop, ?_⟩
        rw [hop] at r2
        simpa [result, answer] using r2
      | find =>
        refine ⟨_, rfl, build _ _ y ds hcalls (.inl rfl) (idleOk _ _ _) (.inr ⟨rfl, ?_⟩)⟩
        rw [← r2, hop]
      | contains =>
        refine ⟨_, rfl, build _ _ y ds hcalls (.inl rfl) (idleOk _ _ _) (.inr ⟨rfl, ?_⟩)⟩
        rw [← r2, hop]
    | found r =>
      rw [hpc] at ht
      refine ⟨_, rfl, build _ _ y ds hcalls (.inr (.inr ht.1)) ?_ (.inl ⟨rfl, rfl⟩)⟩
      unfold Ok
      simp only
      exact ⟨ht.1, ht.2, fun i hi => by rw [hi]; rfl⟩
    | stored r =>
      rw [hpc] at ht
      obtain ⟨h1, h2, h3⟩ := ht
      cases r with
      | none =>
        refine ⟨_, rfl, build _ _ y ds hcalls (.inl rfl) (idleOk _ _ _) (.inr ⟨rfl, ?_⟩)⟩
        simp only [answer, h1, ← h2]
      | some i =>
        refine ⟨_, rfl, build _ _ y ds hcalls (.inl rfl) (idleOk _ _ _) (.inr ⟨rfl, ?_⟩)⟩
        simp only [answer, h1, ← h2, h3 i rfl]

theorem run_inv {p : Nat → List Call} (hp : S = [] ∨ ∀ t u x y, t ≠ u → x ∈ p t → y ∈ p u → Compat c S x y) :
    ∀ (sched : List Nat) (s : St), Inv c b S p s → ∃ s', run c b s sched = .ok s' ∧ Inv c b S p s'
  | [], s, hs => ⟨s, rfl, hs⟩
  | t :: ts, s, hs => by
    obtain ⟨s1, h1, h2⟩ := step_inv hc h hb hs t (hp.imp id fun hp u hu => .inr fun x cs y ds hx hy => by
      obtain ⟨d, d1, _⟩ := hs.answered u
      obtain ⟨e, e1, _⟩ := hs.answered t
      exact hp u t x y hu (by rw [d1, hx]; simp) (by rw [e1, hy]; simp))
    obtain ⟨s2, h3, h4⟩ := run_inv hp ts s1 h2
    exact ⟨s2, by rw [run_cons h1, h3], h4⟩

theorem run_serial {p : Nat → List Call} : ∀ (sched : List Nat) (s : St), Inv c b S p s → NoOverlap c b s sched →
    ∃ s', run c b s sched = .ok s' ∧ Inv c b S p s'
  | [], s, hs, _ => ⟨s, rfl, hs⟩
  | t :: ts, s, hs, hn => by
    obtain ⟨s1, h1, h2⟩ := step_inv hc h hb hs t (.inr fun u hu => .inl (hn.1 u hu))
    obtain ⟨s2, h3, h4⟩ := run_serial ts s1 h2 (hn.2 s1 h1)
    exact ⟨s2, by rw [run_cons h1, h3], h4⟩

/-- A thread makes its next call alone. -/
theorem solo (s : St) (t : Nat) (x : Call) (cs : List Call) (hcalls : (s.th t).calls = x :: cs) (hidle : (s.th t).pc = .idle) :
    ∃ n s', run c b s (List.replicate n t) = .ok s' ∧ (s'.th t) = ⟨cs, .idle, (s.th t).out ++ [answer c.cmp S x.op x.key]⟩ ∧
      ∀ u, u ≠ t → s'.th u = s.th u := by
  have hl := find_place hc h hb x.key
  by_cases hop : x.op = .get
  · refine ⟨4, ?_⟩
    cases hr : place c.cmp S x.key <;>
    · rw [hr] at hl
      simp only [List.replicate, run, step, hcalls, hidle, pure_eq_ok, ok_bindE, upd_self, look, hl, hop, asIndex, answer, hr]
      exact ⟨_, rfl, by simp only [upd_self], fun u hu => by simp only [upd_ne _ _ hu]⟩
  · refine ⟨2, ?_⟩
    simp only [List.replicate, run, step, hcalls, hidle, pure_eq_ok, ok_bindE, upd_self, look, hl]
    cases hop' : x.op with
    | get => exact absurd hop' hop
    | find => exact ⟨_, rfl, by simp only [upd_self]; rfl, fun u hu => by simp only [upd_ne _ _ hu]⟩
    | contains => exact ⟨_, rfl, by simp only [upd_self]; rfl, fun u hu => by simp only [upd_ne _ _ hu]⟩

/-- A thread makes its next calls alone. -/
theorem solos (t : Nat) (cs : List Call) : ∀ (pre : List Call) (s : St), (s.th t).calls = pre ++ cs → (s.th t).pc = .idle →
    ∃ n s', run c b s (List.replicate n t) = .ok s' ∧
      (s'.th t) = ⟨cs, .idle, (s.th t).out ++ pre.map fun x => answer c.cmp S x.op x.key⟩ ∧ ∀ u, u ≠ t → s'.th u = s.th u
  | [], s, hcalls, hidle => ⟨0, s, rfl, by
      cases hT : s.th t with
      | mk a b d => rw [hT] at hcalls hidle; simp only [List.nil_append] at hcalls; subst hcalls; subst hidle; simp, fun _ _ => rfl⟩
  | x :: pre, s, hcalls, hidle => by
    obtain ⟨n, s1, a1, a2, a3⟩ := solo hc h hb s t x (pre ++ cs) (by simpa using hcalls) hidle
    obtain ⟨m, s2, b1, b2, b3⟩ := solos t cs pre s1 (by rw [a2]) (by rw [a2])
    refine ⟨n + m, s2, ?_, ?_, fun u hu => by rw [b3 u hu, a3 u hu]⟩
    · rw [← List.replicate_append_replicate, run_append c b _ _ _ _ a1, b1]
    · rw [b2, a2]; simp

/-- Two threads get to given calls. -/
theorem reach (p : Nat → List Call) (tmp : Tmp) {t u : Nat} (htu : t ≠ u) {pre cs pre' cs' : List Call} {x y : Call}
    (ht : p t = pre ++ x :: cs) (hu : p u = pre' ++ y :: cs') :
    ∃ sched s, run c b (start p tmp) sched = .ok s ∧ s.th t = ⟨x :: cs, .idle, pre.map fun x => answer c.cmp S x.op x.key⟩ ∧
      s.th u = ⟨y :: cs', .idle, pre'.map fun x => answer c.cmp S x.op x.key⟩ := by
  obtain ⟨n, s1, a1, a2, a3⟩ := solos hc h hb t (x :: cs) pre (start p tmp) ht rfl
  have e : s1.th u = ⟨p u, .idle, []⟩ := by rw [a3 u (Ne.symm htu)]; rfl
  obtain ⟨m, s2, b1, b2, b3⟩ := solos hc h hb u (y :: cs') pre' s1 (by rw [e]; exact hu) (by rw [e])
  refine ⟨List.replicate n t ++ List.replicate m u, s2, by rw [run_append c b _ _ _ _ a1, b1], ?_, ?_⟩
  · rw [b3 t htu, a2]; simp [start]
  · rw [b2, e]; simp

/-- The call of thread `t` gets the answer for the key of thread `u`. -/
theorem swap (p : Nat → List Call) (tmp : Tmp) {t u : Nat} (htu : t ≠ u) {pre cs pre' cs' : List Call} {x y : Call}
    (ht : p t = pre ++ x :: cs) (hu : p u = pre' ++ y :: cs') :
    ∃ sched s, run c b (start p tmp) sched = .ok s ∧ (s.th t).calls = cs ∧
      (s.th t).out = (pre.map fun x => answer c.cmp S x.op x.key) ++ [answer c.cmp S x.op y.key] := by
  obtain ⟨sched, s, r1, r2, r3⟩ := reach hc h hb p tmp htu ht hu
  have hl := find_place hc h hb y.key
  have hut : u ≠ t := Ne.symm htu
  by_cases hop : x.op = .get
  · cases hr : place c.cmp S y.key <;>
    · rw [hr] at hl
      refine ⟨sched ++ [t, u, t, t, t], ?_⟩
      rw [run_append c b _ _ _ _ r1]
      simp only [run, step, r2, r3, pure_eq_ok, ok_bindE, upd_self, upd_ne _ _ htu, upd_ne _ _ hut, look, hl, hop, asIndex, answer, hr]
      exact ⟨_, rfl, by simp only [upd_self], by simp only [upd_self]⟩
  · refine ⟨sched ++ [t, u, t], ?_⟩
    rw [run_append c b _ _ _ _ r1]
    simp only [run, step, r2, r3, pure_eq_ok, ok_bindE, upd_self, upd_ne _ _ htu, upd_ne _ _ hut, look, hl]
    cases hop' : x.op with
    | get => exact absurd hop' hop
    | find => exact ⟨_, rfl, by simp only [upd_self], by simp only [upd_self]; rfl⟩
    | contains => exact ⟨_, rfl, by simp only [upd_self], by simp only [upd_self]; rfl⟩

/-- A `bmap_get` makes another thread take an index for a pointer. -/
theorem crash (p : Nat → List Call) (tmp : Tmp) (hS : S ≠ []) {t u : Nat} (htu : t ≠ u) {pre cs pre' cs' : List Call} {x y : Call}
    (ht : p t = pre ++ x :: cs) (hu : p u = pre' ++ y :: cs') (hop : x.op = .get) :
    ∃ sched, run c b (start p tmp) sched = .error .oobRead := by
  obtain ⟨sched, s, r1, r2, r3⟩ := reach hc h hb p tmp htu ht hu
  have hl := find_place hc h hb x.key
  have hut : u ≠ t := Ne.symm htu
  have h0 : b.keys.count ≠ 0 := by
    rw [h.keys.count]
    simpa using hS
  refine ⟨sched ++ [t, t, u, t, u], ?_⟩
  rw [run_append c b _ _ _ _ r1]
  simp only [run, step, r2, r3, pure_eq_ok, ok_bindE, upd_self, upd_ne _ _ htu, upd_ne _ _ hut, look, hl, hop, h0, if_false]
  rfl

end

/-! ### hbmap -/

open Ulz.Bmap.Spec (mkIter HCfgOk)
open Ulz.Bmap (bucket buckindex makeBucket iterBucket iterIndex isNone idx64 hfind mkIter_toNat iterBucket_mk iterIndex_mk makeBucket_eq makeBucket_or
  or_neg_one isNone_neg mkIter_ne mkIter_inj bidx HView SizeLe)

/-- What is needed of a map: the bucket of every key and its place in it. -/
structure Facts (c : HCfg) (h : List BM) (B : List Byte → Nat) (r : List Byte → Option Nat) : Prop where
  lt : ∀ k, B k < h.length
  small : h.length < 2^32
  idx : ∀ k, buckindex c h k = .ok (BitVec.ofNat 64 (B k))
  home : ∀ k, ∃ bm, bucket h (B k) = .ok bm ∧ (∀ k', B k' = B k → Bmap.find c.toCfg bm k' = .ok (r k')) ∧
    ∀ k', B k' ≠ B k → Bmap.find c.toCfg bm k' = .ok none
  r_lt : ∀ k i, r k = some i → i < 2^32

theorem facts {c : HCfg} (hc : HCfgOk c) {h Ss} (hv : HView c h Ss) {n : Nat} (hn : SizeLe Ss n) (hn32 : n < 2^32)
    (hb : n * c.ksz < 2^64) : Facts c h (bidx c Ss) (fun k => place c.cmp (Ss.getD (bidx c Ss k) []) k) := by
  have hlt : ∀ k, bidx c Ss k < h.length := fun k => by rw [hv.len]; exact Bmap.bidx_lt hv k
  refine ⟨hlt, hv.small, Bmap.buckindex_spec hv, fun k => ⟨h[bidx c Ss k]'(hlt k), Bmap.bucket_spec (hlt k), ?_, ?_⟩, ?_⟩
  · intro k' hk'
    have hS : bidx c Ss k < Ss.length := by rw [← hv.len]; exact hlt k
    have hV := hv.view _ (hlt k)
    have hle := hn _ (List.getElem_mem hS)
    rw [find_place hc.toCfgOk hV (Sblist.mul_lt_of hb (by rw [hV.keys.count]; simpa using hle)) k']
    show _ = Except.ok (place c.cmp (Ss.getD (bidx c Ss k') []) k')
    rw [hk', Bmap.getD_lt hS]
  · intro k' hk'
    have hS : bidx c Ss k < Ss.length := by rw [← hv.len]; exact hlt k
    have hV := hv.view _ (hlt k)
    have hle := hn _ (List.getElem_mem hS)
    rw [find_place hc.toCfgOk hV (Sblist.mul_lt_of hb (by rw [hV.keys.count]; simpa using hle)) k']
    congr 1
    unfold place
    rw [List.findIdx?_eq_none_iff]
    intro e he
    have h1 := hv.home _ hS e he
    have : ¬ c.cmp k' e.1 = 0 := fun e0 => by
      apply hk'
      rw [← hc.hash k' e.1 e0] at h1
      unfold bidx at h1 ⊢
      rw [hv.len] at h1
      exact h1
    simpa using this
  · intro k i hi
    have hS : bidx c Ss k < Ss.length := by rw [← hv.len]; exact hlt k
    simp only [Bmap.getD_lt hS] at hi
    unfold place at hi
    rw [List.findIdx?_eq_some_iff_getElem] at hi
    have hle := hn _ (List.getElem_mem hS)
    obtain ⟨h1, _⟩ := hi
    omega

/-- What `hbmap_find` returns. -/
def iterOf (B : List Byte → Nat) (r : List Byte → Option Nat) (k : List Byte) : Bmap.Iter := mkIter (B k) 0 ||| idx64 (r k)

section
variable {c : HCfg} {h : List BM} {B : List Byte → Nat} {r : List Byte → Option Nat} (F : Facts c h B r)
include F

theorem B_lt (k : List Byte) : B k < 2^32 := by have := F.lt k; have := F.small; omega

theorem B_lt1 (k : List Byte) : B k < 2^32 - 1 := by have := F.lt k; have := F.small; omega

theorem mk_idx (k : List Byte) {i : Nat} (hi : i < 2^32) : mkIter (B k) 0 ||| idx64 (some i) = mkIter (B k) i := by
  rw [← makeBucket_eq (B_lt F k)]
  exact makeBucket_or (B_lt F k) hi

theorem iterOf_some {k : List Byte} {i : Nat} (h : r k = some i) : iterOf B r k = mkIter (B k) i := by
  unfold iterOf
  rw [h, mk_idx F k (F.r_lt k i h)]

theorem iterOf_none {k : List Byte} (h : r k = none) : iterOf B r k = -1#64 := by
  unfold iterOf
  rw [h]
  exact or_neg_one _

theorem isNone_iterOf (k : List Byte) : isNone (iterOf B r k) = (r k).isNone := by
  cases h : r k with
  | none => rw [iterOf_none F h]; exact isNone_neg
  | some i => rw [iterOf_some F h]; exact mkIter_ne (B_lt1 F k) (F.r_lt k i h)

theorem hfind_eq (k : List Byte) : hfind c h k = .ok (iterOf B r k) := by
  obtain ⟨bm, h1, h2, _⟩ := F.home k
  unfold hfind
  simp only [F.idx k, ok_bindE, makeBucket_eq (B_lt F k), iterBucket_mk (B_lt F k) (by decide : 0 < 2^32), h1, h2 k rfl]
  rfl

/-- The right answer. -/
def hans (B : List Byte → Nat) (r : List Byte → Option Nat) (op : LookOp) (k : List Byte) : HRes :=
  match op with
  | .find => .iter (iterOf B r k)
  | .contains => .bool (r k).isSome
  | .get => .ptr ((r k).map fun i => (B k, i))

theorem hanswer_eq (op : LookOp) (k : List Byte) : hanswer c h op k = .ok (hans B r op k) := by
  unfold hanswer
  simp only [hfind_eq F k, ok_bindE, pure_eq_ok, isNone_iterOf F]
  cases op with
  | find => rfl
  | contains => simp only [hans]; cases r k <;> rfl
  | get =>
    simp only [hans]
    cases h : r k with
    | none => rfl
    | some i =>
      rw [iterOf_some F h, iterBucket_mk (B_lt F k) (F.r_lt k i h), iterIndex_mk (B_lt F k) (F.r_lt k i h)]; rfl

end

theorem hrun_append (c : HCfg) (h : List BM) : ∀ (xs ys : List Nat) (s s' : HSt), hrun c h s xs = .ok s' → hrun c h s (xs ++ ys) = hrun c h s' ys
  | [], _, s, s', e => by cases e; rfl
  | x :: xs, ys, s, s', e => by
    simp only [hrun] at e
    obtain ⟨s1, h1, h2⟩ := Frame.bind_ok.1 e
    simp only [List.cons_append, hrun, h1, ok_bindE]
    exact hrun_append c h xs ys s1 s' h2

theorem hrun_cons {c : HCfg} {h : List BM} {s s' : HSt} {t : Nat} (e : hstep c h s t = .ok s') (ts : List Nat) :
    hrun c h s (t :: ts) = hrun c h s' ts := by
  simp only [hrun, e, ok_bindE]

/-- The key in the bucket is as good as that of `x`. -/
def Kt (B : List Byte → Nat) (r : List Byte → Option Nat) (kt : Nat → Option (List Byte)) (k : List Byte) : Prop :=
  ∃ k', kt (B k) = some k' ∧ B k' = B k ∧ r k' = r k

/-- What holds of a thread between steps. -/
def HOk (B : List Byte → Nat) (r : List Byte → Option Nat) (it : Bmap.Iter) (kt : Nat → Option (List Byte)) (T : HThread) : Prop :=
  match T.calls with
  | [] => T.pc = .idle
  | x :: _ =>
    match T.pc with
    | .idle => True
    | .started => it = mkIter (B x.key) 0
    | .aim j => j = B x.key ∧ it = mkIter (B x.key) 0
    | .named => it = mkIter (B x.key) 0 ∧ Kt B r kt x.key
    | .picked j => j = B x.key ∧ it = mkIter (B x.key) 0 ∧ Kt B r kt x.key
    | .keyed j i => j = B x.key ∧ i = B x.key ∧ it = mkIter (B x.key) 0 ∧ Kt B r kt x.key
    | .looked q => q = r x.key ∧ it = mkIter (B x.key) 0
    | .merged v => v = iterOf B r x.key
    | .stored => it = iterOf B r x.key
    | .tested => x.op = .get ∧ it = iterOf B r x.key ∧ r x.key ≠ none
    | .within j => x.op = .get ∧ it = iterOf B r x.key ∧ r x.key ≠ none ∧ j = B x.key

/-- Lookups that may overlap with each other. -/
def HCompat (B : List Byte → Nat) (r : List Byte → Option Nat) (x y : Call) : Prop :=
  B x.key = B y.key ∧ r x.key = some 0 ∧ r y.key = some 0

structure HInv (B : List Byte → Nat) (r : List Byte → Option Nat) (p : Nat → List Call) (s : HSt) : Prop where
  ok : ∀ t, HOk B r s.it s.kt (s.th t)
  answered : ∀ t, ∃ done, p t = done ++ (s.th t).calls ∧ (s.th t).out = done.map fun x => hans B r x.op x.key

theorem hstart_inv (B : List Byte → Nat) (r : List Byte → Option Nat) (p : Nat → List Call) (it : Bmap.Iter) (kt : Nat → Option (List Byte)) :
    HInv B r p (hstart p it kt) := by
  refine ⟨fun t => ?_, fun t => ⟨[], rfl, rfl⟩⟩
  simp only [hstart, HOk]
  split <;> simp_all

section
variable {c : HCfg} {h : List BM} {B : List Byte → Nat} {r : List Byte → Option Nat} (F : Facts c h B r)
include F

theorem HOk.other {it it' : Bmap.Iter} {kt kt' : Nat → Option (List Byte)} {T : HThread} (hT : HOk B r it kt T)
    (hi : (it' = it ∧ kt' = kt) ∨ T.pc = .idle ∨ ∃ x cs y, T.calls = x :: cs ∧ HCompat B r x y ∧ (it' = it ∨ it' = mkIter (B y.key) 0) ∧
      (kt' = kt ∨ kt' = upd kt (B y.key) (some y.key))) : HOk B r it' kt' T := by
  rcases hi with ⟨rfl, rfl⟩ | hp | ⟨x, cs, y, hx, ⟨c1, c2, c3⟩, h1, h2⟩
  · exact hT
  · unfold HOk at hT ⊢
    rw [hp] at hT ⊢
    split <;> simp_all
  · have hitx : iterOf B r x.key = mkIter (B x.key) 0 := iterOf_some F c2
    have hit : it = mkIter (B x.key) 0 → it' = mkIter (B x.key) 0 := by
      intro e
      rcases h1 with h1 | h1
      · rw [h1, e]
      · rw [h1, c1]
    have hkt : Kt B r kt x.key → Kt B r kt' x.key := by
      intro e
      rcases h2 with h2 | h2
      · rw [h2]; exact e
      · exact ⟨y.key, by rw [h2, c1, upd_self], c1.symm, by rw [c2, c3]⟩
    unfold HOk at hT ⊢
    rw [hx] at hT ⊢
    simp only at hT ⊢
    rw [hitx] at hT ⊢
    cases hpc : T.pc <;> rw [hpc] at hT <;> simp only at hT ⊢
    · exact hit hT
    · exact ⟨hT.1, hit hT.2⟩
    · exact ⟨hit hT.1, hkt hT.2⟩
    · exact ⟨hT.1, hit hT.2.1, hkt hT.2.2⟩
    · exact ⟨hT.1, hT.2.1, hit hT.2.2.1, hkt hT.2.2.2⟩
    · exact ⟨hT.1, hit hT.2⟩
    · exact hT
    · exact hit hT
    · exact ⟨hT.1, hit hT.2.1, hT.2.2⟩
    · exact ⟨hT.1, hit hT.2.1, hT.2.2⟩

theorem hstep_inv {p : Nat → List Call} {s : HSt} (hs : HInv B r p s) (t : Nat)
    (hi : ∀ u, u ≠ t → (s.th u).pc = .idle ∨ ∀ x cs y ds, (s.th u).calls = x :: cs → (s.th t).calls = y :: ds → HCompat B r x y) :
    ∃ s', hstep c h s t = .ok s' ∧ HInv B r p s' := by
  have ht := hs.ok t
  have others : ∀ (it' : Bmap.Iter) (kt' : Nat → Option (List Byte)) (y : Call) (ds : List Call), (s.th t).calls = y :: ds →
      (it' = s.it ∨ it' = mkIter (B y.key) 0 ∨ it' = iterOf B r y.key) → (kt' = s.kt ∨ kt' = upd s.kt (B y.key) (some y.key)) →
      ∀ u, u ≠ t → HOk B r it' kt' (s.th u) := by
    intro it' kt' y ds hy h1 h2 u hu
    apply (hs.ok u).other F
    rcases hi u hu with hi | hi
    · exact .inr (.inl hi)
    · cases hcalls : (s.th u).calls with
      | nil =>
        have := hs.ok u
        unfold HOk at this
        rw [hcalls] at this
        exact .inr (.inl this)
      | cons x cs =>
        have hxy := hi x cs y ds hcalls hy
        refine .inr (.inr ⟨x, cs, y, rfl, hxy, ?_, h2⟩)
        rcases h1 with h1 | h1 | h1
        · exact .inl h1
        · exact .inr h1
        · exact .inr (by rw [h1, iterOf_some F hxy.2.2])
  have build : ∀ (it' : Bmap.Iter) (kt' : Nat → Option (List Byte)) (T' : HThread) (y : Call) (ds : List Call), (s.th t).calls = y :: ds →
      (it' = s.it ∨ it' = mkIter (B y.key) 0 ∨ it' = iterOf B r y.key) → (kt' = s.kt ∨ kt' = upd s.kt (B y.key) (some y.key)) →
      HOk B r it' kt' T' →
      ((T'.calls = y :: ds ∧ T'.out = (s.th t).out) ∨ (T'.calls = ds ∧ T'.out = (s.th t).out ++ [hans B r y.op y.key])) →
      HInv B r p ⟨it', kt', upd s.th t T'⟩ := by
    intro it' kt' T' y ds hy h1 h2 hT' hout
    refine ⟨fun u => ?_, fun u => ?_⟩
    · show HOk B r it' kt' (upd s.th t T' u)
      by_cases e : u = t
      · subst e; rw [upd_self]; exact hT'
      · rw [upd_ne _ _ e]; exact others it' kt' y ds hy h1 h2 u e
    · show ∃ done, p u = done ++ (upd s.th t T' u).calls ∧ (upd s.th t T' u).out = done.map fun x => hans B r x.op x.key
      by_cases e : u = t
      · subst e
        rw [upd_self]
        obtain ⟨done, d1, d2⟩ := hs.answered u
        rcases hout with ⟨o1, o2⟩ | ⟨o1, o2⟩
        · exact ⟨done, by rw [d1, hy, o1], by rw [o2, d2]⟩
        · exact ⟨done ++ [y], by rw [d1, hy, o1]; simp, by rw [o2, d2]; simp⟩
      · rw [upd_ne _ _ e]; exact hs.answered u
  have idleOk : ∀ (it' : Bmap.Iter) (kt' : Nat → Option (List Byte)) (ds : List Call) (out : List HRes), HOk B r it' kt' ⟨ds, .idle, out⟩ := by
    intro it' kt' ds out
    cases ds <;> simp [HOk]
  unfold hstep
  simp only
  cases hcalls : (s.th t).calls with
  | nil => exact ⟨s, rfl, hs⟩
  | cons y ds =>
    have hB := B_lt F y.key
    have hIB : iterBucket (mkIter (B y.key) 0) = B y.key := iterBucket_mk hB (by decide)
    unfold HOk at ht
    rw [hcalls] at ht
    simp only at ht
    cases hpc : (s.th t).pc with
    | idle =>
      simp only [F.idx, ok_bindE, makeBucket_eq hB]
      exact ⟨_, rfl, build _ _ _ y ds hcalls (.inr (.inl rfl)) (.inl rfl) (by simp only [HOk]) (.inl ⟨rfl, rfl⟩)⟩
    | started =>
      rw [hpc] at ht
      refine ⟨_, rfl, build _ _ _ y ds hcalls (.inl rfl) (.inl rfl) ?_ (.inl ⟨rfl, rfl⟩)⟩
      simp only [HOk]
      exact ⟨by rw [ht, hIB], ht⟩
    | aim j =>
      rw [hpc] at ht
      obtain ⟨rfl, ht⟩ := ht
      simp only [F.lt, if_true]
      refine ⟨_, rfl, build _ _ _ y ds hcalls (.inl rfl) (.inr rfl) ?_ (.inl ⟨rfl, rfl⟩)⟩
      simp only [HOk]
      exact ⟨ht, y.key, by rw [upd_self], rfl, rfl⟩
    | named =>
      rw [hpc] at ht
      refine ⟨_, rfl, build _ _ _ y ds hcalls (.inl rfl) (.inl rfl) ?_ (.inl ⟨rfl, rfl⟩)⟩
      simp only [HOk]
      exact ⟨by rw [ht.1, hIB], ht⟩
    | picked j =>
      rw [hpc] at ht
      obtain ⟨rfl, ht⟩ := ht
      refine ⟨_, rfl, build _ _ _ y ds hcalls (.inl rfl) (.inl rfl) ?_ (.inl ⟨rfl, rfl⟩)⟩
      simp only [HOk]
      exact ⟨trivial, by rw [ht.1, hIB], ht⟩
    | keyed j i =>
      rw [hpc] at ht
      obtain ⟨rfl, rfl, ht, k', g1, g2, g3⟩ := ht
      obtain ⟨bm, f1, f2, _⟩ := F.home y.key
      simp only [f1, ok_bindE, F.lt, if_true, g1, f2 k' g2]
      refine ⟨_, rfl, build _ _ _ y ds hcalls (.inl rfl) (.inl rfl) ?_ (.inl ⟨rfl, rfl⟩)⟩
      simp only [HOk]
      exact ⟨g3, ht⟩
    | looked q =>
      rw [hpc] at ht
      obtain ⟨rfl, ht⟩ := ht
      refine ⟨_, rfl, build _ _ _ y ds hcalls (.inl rfl) (.inl rfl) ?_ (.inl ⟨rfl, rfl⟩)⟩
      simp only [HOk]
      rw [ht]; rfl
    | merged v =>
      rw [hpc] at ht
      refine ⟨_, rfl, build _ _ _ y ds hcalls (.inr (.inr ht)) (.inl rfl) ?_ (.inl ⟨rfl, rfl⟩)⟩
      simp only [HOk]
      exact ht
    | stored =>
      rw [hpc] at ht
      simp only at ht
      simp only [ht, isNone_iterOf F]
      cases hop : y.op with
      | find =>
        refine ⟨_, rfl, build _ _ _ y ds hcalls (.inr (.inr rfl)) (.inl rfl) (idleOk _ _ _ _) (.inr ⟨rfl, ?_⟩)⟩
        simp only [hans, hop]
      | contains =>
        refine ⟨_, rfl, build _ _ _ y ds hcalls (.inr (.inr rfl)) (.inl rfl) (idleOk _ _ _ _) (.inr ⟨rfl, ?_⟩)⟩
        simp only [hans, hop]
        cases r y.key <;> rfl
      | get =>
        cases hr : r y.key with
        | none =>
          refine ⟨_, rfl, build _ _ _ y ds hcalls (.inr (.inr rfl)) (.inl rfl) (idleOk _ _ _ _) (.inr ⟨rfl, ?_⟩)⟩
          simp only [hans, hop, hr]; rfl
        | some i =>
          refine ⟨_, rfl, build _ _ _ y ds hcalls (.inr (.inr rfl)) (.inl rfl) ?_ (.inl ⟨rfl, rfl⟩)⟩
          simp only [HOk]
          exact ⟨hop, trivial, by rw [hr]; simp⟩
    | tested =>
      rw [hpc] at ht
      refine ⟨_, rfl, build _ _ _ y ds hcalls (.inl rfl) (.inl rfl) ?_ (.inl ⟨rfl, rfl⟩)⟩
      simp only [HOk]
      refine ⟨ht.1, ht.2.1, ht.2.2, ?_⟩
      cases hr : r y.key with
      | none => exact absurd hr ht.2.2
      | some i => rw [ht.2.1, iterOf_some F hr, iterBucket_mk hB (F.r_lt _ _ hr)]
    | within j =>
      rw [hpc] at ht
      obtain ⟨h1, h2, h3, rfl⟩ := ht
      obtain ⟨bm, f1, _⟩ := F.home y.key
      simp only [f1, ok_bindE]
      refine ⟨_, rfl, build _ _ _ y ds hcalls (.inl rfl) (.inl rfl) (idleOk _ _ _ _) (.inr ⟨rfl, ?_⟩)⟩
      cases hr : r y.key with
      | none => exact absurd hr h3
      | some i =>
        simp only [hans, h1, hr, h2, iterOf_some F hr, iterIndex_mk hB (F.r_lt _ _ hr)]; rfl

theorem hrun_inv {p : Nat → List Call} (hp : ∀ t u x y, t ≠ u → x ∈ p t → y ∈ p u → HCompat B r x y) :
    ∀ (sched : List Nat) (s : HSt), HInv B r p s → ∃ s', hrun c h s sched = .ok s' ∧ HInv B r p s'
  | [], s, hs => ⟨s, rfl, hs⟩
  | t :: ts, s, hs => by
    obtain ⟨s1, h1, h2⟩ := hstep_inv F hs t (fun u hu => .inr fun x cs y ds hx hy => by
      obtain ⟨d, d1, _⟩ := hs.answered u
      obtain ⟨e, e1, _⟩ := hs.answered t
      exact hp u t x y hu (by rw [d1, hx]; simp) (by rw [e1, hy]; simp))
    obtain ⟨s2, h3, h4⟩ := hrun_inv hp ts s1 h2
    exact ⟨s2, by rw [hrun_cons h1, h3], h4⟩

theorem hrun_serial {p : Nat → List Call} : ∀ (sched : List Nat) (s : HSt), HInv B r p s → HNoOverlap c h s sched →
    ∃ s', hrun c h s sched = .ok s' ∧ HInv B r p s'
  | [], s, hs, _ => ⟨s, rfl, hs⟩
  | t :: ts, s, hs, hn => by
    obtain ⟨s1, h1, h2⟩ := hstep_inv F hs t (fun u hu => .inl (hn.1 u hu))
    obtain ⟨s2, h3, h4⟩ := hrun_serial ts s1 h2 (hn.2 s1 h1)
    exact ⟨s2, by rw [hrun_cons h1, h3], h4⟩

end

/-- Iterators into bucket `b`. -/
def In (b : Nat) (it : Bmap.Iter) : Prop := ∃ i, i < 2^32 ∧ it = mkIter b i

/-- The key in bucket `b` is in the map. -/
def Ktp (B : List Byte → Nat) (r : List Byte → Option Nat) (b : Nat) (kt : Nat → Option (List Byte)) : Prop :=
  ∃ k', kt b = some k' ∧ B k' = b ∧ r k' ≠ none

/-- What holds of a thread between steps if all calls ask whether the map contains a key which is in bucket `b`. -/
def WOk (B : List Byte → Nat) (r : List Byte → Option Nat) (b : Nat) (it : Bmap.Iter) (kt : Nat → Option (List Byte)) (T : HThread) : Prop :=
  match T.calls with
  | [] => T.pc = .idle
  | _ :: _ =>
    match T.pc with
    | .idle => True
    | .started => In b it
    | .aim j => j = b ∧ In b it
    | .named => In b it ∧ Ktp B r b kt
    | .picked j => j = b ∧ In b it ∧ Ktp B r b kt
    | .keyed j i => j = b ∧ i = b ∧ In b it ∧ Ktp B r b kt
    | .looked q => (∃ i, i < 2^32 ∧ q = some i) ∧ In b it
    | .merged v => In b v
    | .stored => In b it
    | .tested => False
    | .within _ => False

structure WInv (B : List Byte → Nat) (r : List Byte → Option Nat) (b : Nat) (p : Nat → List Call) (s : HSt) : Prop where
  ok : ∀ t, WOk B r b s.it s.kt (s.th t)
  answered : ∀ t, ∃ done, p t = done ++ (s.th t).calls ∧ (s.th t).out = done.map fun x => hans B r x.op x.key

theorem wstart_inv (B : List Byte → Nat) (r : List Byte → Option Nat) (b : Nat) (p : Nat → List Call) (it : Bmap.Iter)
    (kt : Nat → Option (List Byte)) : WInv B r b p (hstart p it kt) := by
  refine ⟨fun t => ?_, fun t => ⟨[], rfl, rfl⟩⟩
  simp only [hstart, WOk]
  split <;> simp_all

theorem In.or {b i : Nat} {it : Bmap.Iter} (hb : b < 2^32) (h : In b it) (hi : i < 2^32) : In b (it ||| idx64 (some i)) := by
  obtain ⟨j, hj, rfl⟩ := h
  refine ⟨j ||| i, Nat.or_lt_two_pow hj hi, ?_⟩
  rw [← makeBucket_or hb hj, ← makeBucket_or hb (Nat.or_lt_two_pow hj hi), BitVec.or_assoc]
  congr 1
  simp only [idx64]
  apply BitVec.eq_of_toNat_eq
  simp only [BitVec.toNat_or, BitVec.toNat_ofNat]
  have : j ||| i < 2^32 := Nat.or_lt_two_pow hj hi
  rw [Nat.mod_eq_of_lt (by omega), Nat.mod_eq_of_lt (by omega), Nat.mod_eq_of_lt (by omega)]

theorem WOk.other {B : List Byte → Nat} {r : List Byte → Option Nat} {b : Nat} {it it' : Bmap.Iter} {kt kt' : Nat → Option (List Byte)}
    {T : HThread} (hT : WOk B r b it kt T) (h1 : it' = it ∨ In b it') (h2 : kt' = kt ∨ Ktp B r b kt') : WOk B r b it' kt' T := by
  have hit : In b it → In b it' := by
    intro e
    rcases h1 with h1 | h1
    · rw [h1]; exact e
    · exact h1
  have hkt : Ktp B r b kt → Ktp B r b kt' := by
    intro e
    rcases h2 with h2 | h2
    · rw [h2]; exact e
    · exact h2
  unfold WOk at hT ⊢
  cases hc : T.calls with
  | nil => rw [hc] at hT; exact hT
  | cons x cs =>
    rw [hc] at hT
    simp only at hT ⊢
    cases hpc : T.pc <;> rw [hpc] at hT <;> simp only at hT ⊢
    · exact hit hT
    · exact ⟨hT.1, hit hT.2⟩
    · exact ⟨hit hT.1, hkt hT.2⟩
    · exact ⟨hT.1, hit hT.2.1, hkt hT.2.2⟩
    · exact ⟨hT.1, hT.2.1, hit hT.2.2.1, hkt hT.2.2.2⟩
    · exact ⟨hT.1, hit hT.2⟩
    · exact hT
    · exact hit hT

section
variable {c : HCfg} {h : List BM} {B : List Byte → Nat} {r : List Byte → Option Nat} (F : Facts c h B r)
include F

theorem wstep_inv {p : Nat → List Call} {b : Nat} (hp : ∀ t x, x ∈ p t → x.op = .contains ∧ B x.key = b ∧ r x.key ≠ none) {s : HSt}
    (hs : WInv B r b p s) (t : Nat) : ∃ s', hstep c h s t = .ok s' ∧ WInv B r b p s' := by
  have ht := hs.ok t
  have build : ∀ (it' : Bmap.Iter) (kt' : Nat → Option (List Byte)) (T' : HThread) (y : Call) (ds : List Call), (s.th t).calls = y :: ds →
      (it' = s.it ∨ In b it') → (kt' = s.kt ∨ Ktp B r b kt') → WOk B r b it' kt' T' →
      ((T'.calls = y :: ds ∧ T'.out = (s.th t).out) ∨ (T'.calls = ds ∧ T'.out = (s.th t).out ++ [hans B r y.op y.key])) →
      WInv B r b p ⟨it', kt', upd s.th t T'⟩ := by
    intro it' kt' T' y ds hy h1 h2 hT' hout
    refine ⟨fun u => ?_, fun u => ?_⟩
    · show WOk B r b it' kt' (upd s.th t T' u)
      by_cases e : u = t
      · subst e; rw [upd_self]; exact hT'
      · rw [upd_ne _ _ e]; exact (hs.ok u).other h1 h2
    · show ∃ done, p u = done ++ (upd s.th t T' u).calls ∧ (upd s.th t T' u).out = done.map fun x => hans B r x.op x.key
      by_cases e : u = t
      · subst e
        rw [upd_self]
        obtain ⟨done, d1, d2⟩ := hs.answered u
        rcases hout with ⟨o1, o2⟩ | ⟨o1, o2⟩
        · exact ⟨done, by rw [d1, hy, o1], by rw [o2, d2]⟩
        · exact ⟨done ++ [y], by rw [d1, hy, o1]; simp, by rw [o2, d2]; simp⟩
      · rw [upd_ne _ _ e]; exact hs.answered u
  unfold hstep
  simp only
  cases hcalls : (s.th t).calls with
  | nil => exact ⟨s, rfl, hs⟩
  | cons y ds =>
    obtain ⟨hop, hBy, hry⟩ := hp t y (by obtain ⟨d, d1, _⟩ := hs.answered t; rw [d1, hcalls]; simp)
    have hB := B_lt F y.key
    have hB1 := B_lt1 F y.key
    have hlt := F.lt y.key
    rw [hBy] at hB hB1 hlt
    have hIB : ∀ it, In b it → iterBucket it = b := by
      rintro it ⟨i, hi, rfl⟩
      exact iterBucket_mk hB hi
    unfold WOk at ht
    rw [hcalls] at ht
    simp only at ht
    cases hpc : (s.th t).pc with
    | idle =>
      simp only [F.idx, ok_bindE, hBy, makeBucket_eq hB]
      refine ⟨_, rfl, build _ _ _ y ds hcalls (.inr ⟨0, by decide, rfl⟩) (.inl rfl) ?_ (.inl ⟨rfl, rfl⟩)⟩
      simp only [WOk]
      exact ⟨0, by decide, rfl⟩
    | started =>
      rw [hpc] at ht
      refine ⟨_, rfl, build _ _ _ y ds hcalls (.inl rfl) (.inl rfl) ?_ (.inl ⟨rfl, rfl⟩)⟩
      simp only [WOk]
      exact ⟨hIB _ ht, ht⟩
    | aim j =>
      rw [hpc] at ht
      obtain ⟨rfl, ht⟩ := ht
      simp only [hlt, if_true]
      refine ⟨_, rfl, build _ _ _ y ds hcalls (.inl rfl) (.inr ⟨y.key, by rw [upd_self], hBy, hry⟩) ?_ (.inl ⟨rfl, rfl⟩)⟩
      simp only [WOk]
      exact ⟨ht, y.key, by rw [upd_self], hBy, hry⟩
    | named =>
      rw [hpc] at ht
      refine ⟨_, rfl, build _ _ _ y ds hcalls (.inl rfl) (.inl rfl) ?_ (.inl ⟨rfl, rfl⟩)⟩
      simp only [WOk]
      exact ⟨hIB _ ht.1, ht⟩
    | picked j =>
      rw [hpc] at ht
      obtain ⟨rfl, ht⟩ := ht
      refine ⟨_, rfl, build _ _ _ y ds hcalls (.inl rfl) (.inl rfl) ?_ (.inl ⟨rfl, rfl⟩)⟩
      simp only [WOk]
      exact ⟨trivial, hIB _ ht.1, ht⟩
    | keyed j i =>
      rw [hpc] at ht
      obtain ⟨rfl, rfl, ht, k', g1, g2, g3⟩ := ht
      obtain ⟨bm, f1, f2, _⟩ := F.home y.key
      rw [hBy] at f1
      simp only [f1, ok_bindE, hlt, if_true, g1, f2 k' (g2.trans hBy.symm)]
      refine ⟨_, rfl, build _ _ _ y ds hcalls (.inl rfl) (.inl rfl) ?_ (.inl ⟨rfl, rfl⟩)⟩
      simp only [WOk]
      cases hr : r k' with
      | none => exact absurd hr g3
      | some n => exact ⟨⟨n, F.r_lt _ _ hr, rfl⟩, ht⟩
    | looked q =>
      rw [hpc] at ht
      obtain ⟨⟨n, hn, rfl⟩, ht⟩ := ht
      refine ⟨_, rfl, build _ _ _ y ds hcalls (.inl rfl) (.inl rfl) ?_ (.inl ⟨rfl, rfl⟩)⟩
      simp only [WOk]
      exact ht.or hB hn
    | merged v =>
      rw [hpc] at ht
      refine ⟨_, rfl, build _ _ _ y ds hcalls (.inr ht) (.inl rfl) ?_ (.inl ⟨rfl, rfl⟩)⟩
      simp only [WOk]
      exact ht
    | stored =>
      rw [hpc] at ht
      simp only at ht
      have hn : isNone s.it = false := by
        obtain ⟨i, hi, e⟩ := ht
        rw [e]; exact mkIter_ne hB1 hi
      simp only [hop]
      refine ⟨_, rfl, build _ _ _ y ds hcalls (.inl rfl) (.inl rfl) ?_ (.inr ⟨rfl, ?_⟩)⟩
      · cases ds <;> simp [WOk]
      · simp only [hans, hop, hn]
        cases hr : r y.key with
        | none => exact absurd hr hry
        | some n => rfl
    | tested => rw [hpc] at ht; exact ht.elim
    | within j => rw [hpc] at ht; exact ht.elim

theorem wrun_inv {p : Nat → List Call} {b : Nat} (hp : ∀ t x, x ∈ p t → x.op = .contains ∧ B x.key = b ∧ r x.key ≠ none) :
    ∀ (sched : List Nat) (s : HSt), WInv B r b p s → ∃ s', hrun c h s sched = .ok s' ∧ WInv B r b p s'
  | [], s, hs => ⟨s, rfl, hs⟩
  | t :: ts, s, hs => by
    obtain ⟨s1, h1, h2⟩ := wstep_inv F hp hs t
    obtain ⟨s2, h3, h4⟩ := wrun_inv hp ts s1 h2
    exact ⟨s2, by rw [hrun_cons h1, h3], h4⟩

/-- From `started` to `stored` alone, with bucket `b` aimed at. -/
theorem from_started (s : HSt) (t : Nat) {x : Call} {cs : List Call} {out : List HRes} (hth : s.th t = ⟨x :: cs, .started, out⟩) (k : List Byte)
    (hit : s.it = mkIter (B k) 0) {bm : BM} (hbm : bucket h (B k) = .ok bm) {q : Option Nat} (hq : Bmap.find c.toCfg bm x.key = .ok q) :
    ∃ s', hrun c h s [t, t, t, t, t, t, t] = .ok s' ∧ s'.it = mkIter (B k) 0 ||| idx64 q ∧ s'.th t = ⟨x :: cs, .stored, out⟩ ∧
      ∀ u, u ≠ t → s'.th u = s.th u := by
  have hIB : iterBucket (mkIter (B k) 0) = B k := iterBucket_mk (B_lt F k) (by decide)
  simp only [hrun, hstep, hth, hit, hIB, upd_self, F.lt, if_true, hbm, ok_bindE, hq, pure_eq_ok]
  refine ⟨_, rfl, rfl, by simp only [upd_self], fun u hu => by simp only [upd_ne _ _ hu]⟩

/-- A lookup alone, up to the storing of its result in the map. -/
theorem to_stored (s : HSt) (t : Nat) {x : Call} {cs : List Call} {out : List HRes} (hth : s.th t = ⟨x :: cs, .idle, out⟩) :
    ∃ s', hrun c h s [t, t, t, t, t, t, t, t] = .ok s' ∧ s'.it = iterOf B r x.key ∧ s'.th t = ⟨x :: cs, .stored, out⟩ ∧
      ∀ u, u ≠ t → s'.th u = s.th u := by
  obtain ⟨bm, f1, f2, _⟩ := F.home x.key
  have h1 : hstep c h s t = .ok { s with it := mkIter (B x.key) 0, th := upd s.th t ⟨x :: cs, .started, out⟩ } := by
    simp only [hstep, hth, F.idx, ok_bindE, makeBucket_eq (B_lt F x.key), pure_eq_ok]
  rw [hrun_cons h1]
  obtain ⟨s', g1, g2, g3, g4⟩ := from_started F { s with it := mkIter (B x.key) 0, th := upd s.th t ⟨x :: cs, .started, out⟩ } t
    (upd_self _ _ _) x.key rfl f1 (f2 _ rfl)
  exact ⟨s', g1, g2, g3, fun u hu => by rw [g4 u hu]; exact upd_ne _ _ hu⟩

/-- A whole lookup alone. -/
theorem hsolo (s : HSt) (t : Nat) {x : Call} {cs : List Call} {out : List HRes} (hth : s.th t = ⟨x :: cs, .idle, out⟩) :
    ∃ sched s', hrun c h s sched = .ok s' ∧ s'.th t = ⟨cs, .idle, out ++ [hans B r x.op x.key]⟩ ∧ ∀ u, u ≠ t → s'.th u = s.th u := by
  obtain ⟨s1, g1, g2, g3, g4⟩ := to_stored F s t hth
  cases hop : x.op with
  | find =>
    refine ⟨_ ++ [t], _, by rw [hrun_append c h _ _ _ _ g1]; simp only [hrun, hstep, g3, hop, ok_bindE, pure_eq_ok]; rfl, ?_,
      fun u hu => by rw [← g4 u hu]; exact upd_ne _ _ hu⟩
    simp only [upd_self, hans, g2]
  | contains =>
    refine ⟨_ ++ [t], _, by rw [hrun_append c h _ _ _ _ g1]; simp only [hrun, hstep, g3, hop, ok_bindE, pure_eq_ok]; rfl, ?_,
      fun u hu => by rw [← g4 u hu]; exact upd_ne _ _ hu⟩
    simp only [upd_self, hans, g2, isNone_iterOf F]
    cases r x.key <;> rfl
  | get =>
    cases hr : r x.key with
    | none =>
      refine ⟨_ ++ [t], _, by
        rw [hrun_append c h _ _ _ _ g1]
        simp only [hrun, hstep, g3, hop, ok_bindE, pure_eq_ok, g2, isNone_iterOf F, hr, Option.isNone_none, if_true]
        rfl, ?_, fun u hu => by rw [← g4 u hu]; exact upd_ne _ _ hu⟩
      simp only [upd_self, hans, hr]; rfl
    | some i =>
      obtain ⟨bm, f1, _⟩ := F.home x.key
      have hB := B_lt F x.key
      have hn : isNone (mkIter (B x.key) i) = false := mkIter_ne (B_lt1 F x.key) (F.r_lt _ _ hr)
      refine ⟨_ ++ [t, t, t], _, by
        rw [hrun_append c h _ _ _ _ g1]
        simp only [hrun, hstep, g3, hop, ok_bindE, pure_eq_ok, g2, hn, hr, upd_self, Bool.false_eq_true,
          if_false, iterOf_some F hr, iterBucket_mk hB (F.r_lt _ _ hr), f1, iterIndex_mk hB (F.r_lt _ _ hr)]
        rfl, ?_, fun u hu => ?_⟩
      · simp only [upd_self, hans, hr]; rfl
      · rw [← g4 u hu]; simp only [upd_ne _ _ hu]

theorem hsolos (t : Nat) : ∀ (cs : List Call) (s : HSt) (rest : List Call) (out : List HRes), s.th t = ⟨cs ++ rest, .idle, out⟩ →
    ∃ sched s', hrun c h s sched = .ok s' ∧ s'.th t = ⟨rest, .idle, out ++ cs.map fun x => hans B r x.op x.key⟩ ∧ ∀ u, u ≠ t → s'.th u = s.th u
  | [], s, rest, out, hth => ⟨[], s, rfl, by simpa using hth, fun _ _ => rfl⟩
  | x :: cs, s, rest, out, hth => by
    obtain ⟨a, s1, h1, h2, h3⟩ := hsolo F s t hth
    obtain ⟨b, s2, g1, g2, g3⟩ := hsolos t cs s1 rest _ h2
    refine ⟨a ++ b, s2, by rw [hrun_append c h _ _ _ _ h1, g1], by rw [g2]; simp, fun u hu => by rw [g3 u hu, h3 u hu]⟩

/-- Any two calls of two threads can be brought together. -/
theorem hreach {p : Nat → List Call} {t u : Nat} (htu : t ≠ u) {a b d e : List Call} {x y : Call} (hx : p t = a ++ x :: b) (hy : p u = d ++ y :: e)
    (it : Bmap.Iter) (kt : Nat → Option (List Byte)) : ∃ sched s, hrun c h (hstart p it kt) sched = .ok s ∧
      s.th t = ⟨x :: b, .idle, a.map fun x => hans B r x.op x.key⟩ ∧ s.th u = ⟨y :: e, .idle, d.map fun x => hans B r x.op x.key⟩ := by
  obtain ⟨l1, s1, h1, h2, h3⟩ := hsolos F t a (hstart p it kt) (x :: b) [] (by simp only [hstart, hx])
  obtain ⟨l2, s2, g1, g2, g3⟩ := hsolos F u d s1 (y :: e) [] (by rw [h3 u (Ne.symm htu)]; simp only [hstart, hy])
  exact ⟨l1 ++ l2, s2, by rw [hrun_append c h _ _ _ _ h1, g1], by rw [g3 t htu, h2]; simp, by rw [g2]; simp⟩

/-- The start of another lookup replaces the result before it is read. -/
theorem overwrite {p : Nat → List Call} {t u : Nat} (htu : t ≠ u) {a b d e : List Call} {x y : Call} (hx : p t = a ++ x :: b)
    (hy : p u = d ++ y :: e) (it : Bmap.Iter) (kt : Nat → Option (List Byte)) : ∃ sched s, hrun c h (hstart p it kt) sched = .ok s ∧
      (s.th t).out = (a.map fun x => hans B r x.op x.key) ++ [match x.op with
        | .find => .iter (mkIter (B y.key) 0) | .contains => .bool true | .get => .ptr (some (B y.key, 0))] ∧ (s.th t).calls = b := by
  obtain ⟨l0, s0, e0, e1, e2⟩ := hreach F htu hx hy it kt
  obtain ⟨s1, g1, g2, g3, g4⟩ := to_stored F s0 t e1
  have hB := B_lt F y.key
  have h1 : hstep c h s1 u = .ok { s1 with it := mkIter (B y.key) 0, th := upd s1.th u ⟨y :: e, .started, d.map fun x => hans B r x.op x.key⟩ } := by
    simp only [hstep, g4 u (Ne.symm htu), e2, F.idx, ok_bindE, makeBucket_eq hB, pure_eq_ok]
  have hn : isNone (mkIter (B y.key) 0) = false := mkIter_ne (B_lt1 F y.key) (by decide)
  have hpre : ∀ l, hrun c h (hstart p it kt) (l0 ++ ([t, t, t, t, t, t, t, t] ++ u :: l)) = hrun c h
      { s1 with it := mkIter (B y.key) 0, th := upd s1.th u ⟨y :: e, .started, d.map fun x => hans B r x.op x.key⟩ } l := by
    intro l
    rw [hrun_append c h _ _ _ _ e0, hrun_append c h _ _ _ _ g1, hrun_cons h1]
  cases hop : x.op with
  | find =>
    refine ⟨l0 ++ ([t, t, t, t, t, t, t, t] ++ u :: [t]), _, by
      rw [hpre]; simp only [hrun, hstep, upd_ne _ _ htu, g3, hop, ok_bindE, pure_eq_ok]; rfl, ?_, ?_⟩ <;> simp only [upd_self]
  | contains =>
    refine ⟨l0 ++ ([t, t, t, t, t, t, t, t] ++ u :: [t]), _, by
      rw [hpre]; simp only [hrun, hstep, upd_ne _ _ htu, g3, hop, ok_bindE, pure_eq_ok, hn]; rfl, ?_, ?_⟩ <;> simp only [upd_self] <;> rfl
  | get =>
    obtain ⟨bm, f1, _⟩ := F.home y.key
    refine ⟨l0 ++ ([t, t, t, t, t, t, t, t] ++ u :: [t, t, t]), _, by
      rw [hpre]
      simp only [hrun, hstep, upd_ne _ _ htu, g3, hop, ok_bindE, pure_eq_ok, hn, upd_self, Bool.false_eq_true, if_false,
        iterBucket_mk hB (by decide : 0 < 2^32), f1, iterIndex_mk hB (by decide : 0 < 2^32)]
      rfl, ?_, ?_⟩ <;> simp only [upd_self]

/-- The start of another lookup sends a lookup into the wrong bucket. -/
theorem astray {p : Nat → List Call} {t u : Nat} (htu : t ≠ u) {a b d e : List Call} {x y : Call} (hx : p t = a ++ x :: b)
    (hy : p u = d ++ y :: e) (hop : x.op = .contains) (hB' : B x.key ≠ B y.key) (it : Bmap.Iter) (kt : Nat → Option (List Byte)) :
    ∃ sched s, hrun c h (hstart p it kt) sched = .ok s ∧
      (s.th t).out = (a.map fun x => hans B r x.op x.key) ++ [.bool false] ∧ (s.th t).calls = b := by
  obtain ⟨l0, s0, e0, e1, e2⟩ := hreach F htu hx hy it kt
  have h1 : hstep c h s0 t = .ok { s0 with it := mkIter (B x.key) 0, th := upd s0.th t ⟨x :: b, .started, a.map fun x => hans B r x.op x.key⟩ } := by
    simp only [hstep, e1, F.idx, ok_bindE, makeBucket_eq (B_lt F x.key), pure_eq_ok]
  have h2 : hstep c h { s0 with it := mkIter (B x.key) 0, th := upd s0.th t ⟨x :: b, .started, a.map fun x => hans B r x.op x.key⟩ } u =
      .ok { s0 with it := mkIter (B y.key) 0, th := upd (upd s0.th t ⟨x :: b, .started, a.map fun x => hans B r x.op x.key⟩) u ⟨y :: e, .started, d.map fun x => hans B r x.op x.key⟩ } := by
    simp only [hstep, upd_ne _ _ (Ne.symm htu), e2, F.idx, ok_bindE, makeBucket_eq (B_lt F y.key), pure_eq_ok]
  obtain ⟨bm, f1, _, f3⟩ := F.home y.key
  obtain ⟨s1, g1, g2, g3, _⟩ := from_started F { s0 with it := mkIter (B y.key) 0, th := upd (upd s0.th t ⟨x :: b, .started, a.map fun x => hans B r x.op x.key⟩) u ⟨y :: e, .started, d.map fun x => hans B r x.op x.key⟩ } t (by show upd (upd _ _ _) _ _ t = _; rw [upd_ne _ _ htu, upd_self]) y.key rfl f1 (f3 _ hB')
  have hn : isNone s1.it = true := by
    rw [g2]
    exact (congrArg isNone (or_neg_one _)).trans isNone_neg
  refine ⟨l0 ++ t :: u :: ([t, t, t, t, t, t, t] ++ [t]), _, by
    rw [hrun_append c h _ _ _ _ e0, hrun_cons h1, hrun_cons h2, hrun_append c h _ _ _ _ g1]
    simp only [hrun, hstep, g3, hop, ok_bindE, pure_eq_ok, hn]; rfl, ?_, ?_⟩ <;> simp only [upd_self]
  rfl

end

end Ulz.Share
