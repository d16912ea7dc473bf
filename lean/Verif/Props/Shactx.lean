import Verif.Proofs.Shactx
/-! Using a hash context again (C211). -/
namespace Ulz.Props
open Ulz.Sha512 Ulz.Sha512.Spec Ulz.Shactx Ulz.Shactx.Spec

/-- C211: no sequence of calls on a SHA-512 context is an error, whatever the 64 + 256 + 8 bytes of the context hold: not even with sha512_init left out. -/
theorem sha512_context_safe (ops : List Op) (c : Ctx) (hh : c.h.length = 64) (hx : c.x.length = 256) :
    ∃ c', hist c ops = .ok c' ∧ c'.h.length = 64 ∧ c'.x.length = 256 := hist_safe ops hh hx

/-- C211: what the result of sha512_end points to, after any sequence of calls on the context with at least one sha512_init: the SHA-512 state after the
    blocks that were hashed since the last sha512_init. -/
theorem sha512_context_history (pre ops : List Op) (c : Ctx) (hh : c.h.length = 64) (hx : c.x.length = 256) :
    ∃ c', hist c (pre ++ .init :: ops) = .ok c' ∧ c'.h = digest (process Sha512.Spec.init (ops.foldl see start).hashed) := by
  obtain ⟨c', e, h⟩ := hist_any pre ops hh hx
  exact ⟨c', e, h.1⟩

/-- C211: sha512_init makes every context new: after it, whole blocks, a last update of any size and sha512_end give the digest of the data, whatever was
    done with the context before. -/
theorem sha512_context_reuse (pre : List Op) (chunks : List (List Byte)) (last : List Byte) (c : Ctx) (hh : c.h.length = 64) (hx : c.x.length = 256)
    (h : ∀ x ∈ chunks, x.length % 128 = 0) (hl : (chunks.flatten ++ last).length < 2 ^ 64) :
    ∃ c', hist c (pre ++ .init :: (chunks.map Op.update ++ [.update last] ++ [.fin])) = .ok c' ∧ c'.h = sha512 (chunks.flatten ++ last) := by
  obtain ⟨c', e, r⟩ := fins_spec pre chunks last 0 hh hx h hl
  refine ⟨c', e, ?_⟩
  rw [r]
  show digest (process _ (pad _ ++ [])) = _
  rw [List.append_nil]; rfl

/-- A used context: a digest was taken and more data was added. -/
example (c : Ctx) (hh : c.h.length = 64) (hx : c.x.length = 256) :
    ∃ c', hist c [.init, .update (bytes! "one"), .fin, .update (bytes! "two"), .init, .update (bytes! "three"), .fin] = .ok c' ∧
      c'.h = sha512 (bytes! "three") :=
  sha512_context_reuse [.init, .update (bytes! "one"), .fin, .update (bytes! "two")] [] (bytes! "three") c hh hx (by simp) (by decide)

/-- C211: sha512_end uses the context up. Each further call hashes the last one or two blocks of the padded message again, and so changes what the earlier
    results point to. -/
theorem sha512_end_again (pre : List Op) (chunks : List (List Byte)) (last : List Byte) (k : Nat) (c : Ctx) (hh : c.h.length = 64)
    (hx : c.x.length = 256) (h : ∀ x ∈ chunks, x.length % 128 = 0) (hl : (chunks.flatten ++ last).length < 2 ^ 64) :
    ∃ c', hist c (pre ++ .init :: (chunks.map Op.update ++ [.update last] ++ List.replicate (k + 1) .fin)) = .ok c' ∧
      c'.h = digest (process Sha512.Spec.init (pad (chunks.flatten ++ last) ++ (List.replicate k (lastPart (chunks.flatten ++ last))).flatten)) :=
  fins_spec pre chunks last k hh hx h hl

/-- C211: with nothing hashed, the second sha512_end gives something else than the digest. -/
theorem sha512_end_twice_differs (c : Ctx) (hh : c.h.length = 64) (hx : c.x.length = 256) :
    ∃ c', hist c [.init, .fin, .fin] = .ok c' ∧ c'.h ≠ sha512 [] := by
  obtain ⟨c', e, r⟩ := hist_any [] [.fin, .fin] hh hx
  refine ⟨c', e, ?_⟩
  rw [r.1]
  decide +kernel

/-- C211: MD5 is different: in every sequence of calls on a context that begins with md5_init, every md5_end gives the digest of all the data since the last
    md5_init; md5_end can be called at any time, any number of times, and does not disturb what follows. -/
theorem md5_context_history (c : Md5.Ctx) (hb : c.buf.length = 64) (ops : List MOp) (hf : MFits ops) :
    ∃ c', mhist c (.init :: ops) = .ok (c', mspec [] ops) := mhist_spec ops (Md5.init_rep hb) hf

/-- Digests of "ab" and "abc" and, after another md5_init, of nothing. -/
example (c : Md5.Ctx) (hb : c.buf.length = 64) : ∃ c', mhist c [.init, .update (bytes! "ab"), .fin (List.replicate 64 1) (List.replicate 16 7),
      .update (bytes! "c"), .fin (List.replicate 64 2) (List.replicate 17 7), .init, .fin (List.replicate 64 3) (List.replicate 16 7)] =
    .ok (c', [Md5.Spec.md5 (bytes! "ab"), Md5.Spec.md5 (bytes! "abc") ++ [7], Md5.Spec.md5 []]) := by
  obtain ⟨c', e⟩ := md5_context_history c hb [.update (bytes! "ab"), .fin (List.replicate 64 1) (List.replicate 16 7),
    .update (bytes! "c"), .fin (List.replicate 64 2) (List.replicate 17 7), .init, .fin (List.replicate 64 3) (List.replicate 16 7)]
    (by intro j d h; simp at h; rcases h with ⟨rfl, rfl⟩ | ⟨rfl, rfl⟩ | ⟨rfl, rfl⟩ <;> simp)
  refine ⟨c', ?_⟩
  rw [e]
  simp [mspec]

end Ulz.Props
