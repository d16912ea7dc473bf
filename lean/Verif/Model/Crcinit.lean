import Verif.Model.Crc
/-! CRC32_InitTables and CRC32C_InitTables (src/crc32/crc32_impl.c) store by store, as several threads that call it, or use the
    tables meanwhile, would see it. Every store and every load is atomic (ISO C leaves such races undefined; on the targets
    of the library aligned words are read and written as a whole). -/
namespace Ulz.Crc

/-- The static variables: whether `T[j]` points to its table (it is NULL at first), and the tables (zero at first). -/
structure Mem where
  ptr : Nat → Bool
  tab : Nat → Nat → W32

/-- A store of InitTables: `T[j] = Tj`, or `T[j][i] = v`. -/
inductive Store where
  | ptr (j : Nat)
  | entry (j i : Nat) (v : W32)

/-- src/crc32/crc32_impl.c:53-57: static variables are zero. -/
def Mem.zero : Mem := ⟨fun _ => false, fun _ _ => 0⟩

/-- src/crc32/crc32_impl.c:96-104: the stores for index `i`, from table `j` on, given the values. -/
def rowStores (i : Nat) : (j : Nat) → List W32 → List Store
  | _, [] => []
  | j, v :: vs => .entry j i v :: rowStores i (j + 1) vs

/-- src/crc32/crc32_impl.c:84-106: all stores in the order of the program. -/
def stores (poly : W32) : List Store :=
  [.ptr 0, .ptr 1, .ptr 2, .ptr 3] ++ (List.range 256).flatMap fun i => rowStores i 0 (entries poly 4 (reverse (BitVec.ofNat 32 i)))

/-- One store. -/
def apply (m : Mem) : Store → C Mem
  | .ptr j => pure { m with ptr := fun k => if k = j then true else m.ptr k }
  | .entry j i v =>
    if !m.ptr j then .error .nullDeref
    else if i < 256 then pure { m with tab := fun k l => if k = j ∧ l = i then v else m.tab k l }
    else .error .oobWrite

/-- A sequence of stores. -/
def exec (m : Mem) : List Store → C Mem
  | [] => pure m
  | s :: ss => do exec (← apply m s) ss

/-- Threads that call InitTables: the memory, and how many stores each has done. -/
structure Threads where
  mem : Mem
  pc : Nat → Nat

/-- Thread `n` does its next store, if it is not done. -/
def tick (poly : W32) (s : Threads) (n : Nat) : C Threads :=
  match (stores poly)[s.pc n]? with
  | none => pure s
  | some st => do pure ⟨← apply s.mem st, fun k => if k = n then s.pc n + 1 else s.pc k⟩

/-- A schedule. -/
def schedule (poly : W32) (s : Threads) : List Nat → C Threads
  | [] => pure s
  | n :: ns => do schedule poly (← tick poly s n) ns

/-- `T[j][i]` in a memory. -/
def lookM (m : Mem) (j : Nat) (i : W32) : C W32 :=
  if !m.ptr j then .error .nullDeref
  else if i.toNat < 256 then pure (m.tab j i.toNat) else .error .oobRead

/-- src/crc32/crc32_impl.c:140-141 with a memory. -/
def byteM (m : Mem) (s : W32) (b : Byte) : C W32 := do
  let t ← lookM m 0 ((s &&& 0xff) ^^^ b.setWidth 32)
  pure ((s >>> 8) ^^^ t)

/-- src/crc32/crc32_impl.c:131-135 with a memory. -/
def blockM (m : Mem) (s : W32) (b0 b1 b2 b3 : Byte) : C W32 := do
  let t0 ← lookM m 0 (((s >>> 24) &&& 0xff) ^^^ b3.setWidth 32)
  let t1 ← lookM m 1 (((s >>> 16) &&& 0xff) ^^^ b2.setWidth 32)
  let t2 ← lookM m 2 (((s >>> 8) &&& 0xff) ^^^ b1.setWidth 32)
  let t3 ← lookM m 3 ((s &&& 0xff) ^^^ b0.setWidth 32)
  pure (t0 ^^^ t1 ^^^ t2 ^^^ t3)

/-- src/crc32/crc32_impl.c:127-143 with a memory. -/
def updateM (m : Mem) (s : W32) : List Byte → C W32
  | b0 :: b1 :: b2 :: b3 :: rest => do updateM m (← blockM m s b0 b1 b2 b3) rest
  | [] => pure s
  | b :: rest => do updateM m (← byteM m s b) rest

end Ulz.Crc
