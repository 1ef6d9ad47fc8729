import Verif.Model.Cycle

/-
The other two random sources of /repo/picnic_impl.c: `random_bytes_default` on Windows (lines 819-830) and `random_bytes_supercop`
(lines 838-845).
-/

namespace Picnic

/-- What Windows answers to the k-th call of `BCryptGenRandom` with a given number of bytes: whether the status is a success, and the bytes stored. -/
structure BCrypt where
  success : Nat → Nat → Bool
  bytes : Nat → Nat → Buf

/-- /repo/picnic_impl.c:819-830 `random_bytes_default` (Windows, where `ULONG` has 32 bits and `size_t` may have 64): return value and
destination buffer.  `(ULONG)len` is the remainder modulo 2^32. -/
def randomBytesWindows (B : BCrypt) (k : Nat) (buf : Buf) (len : Nat) : M (Int × Buf) := do
  if len > 0xFFFFFFFF then pure (-3, buf) else do
  let cb := len % 2 ^ 32
  let buf ← wrN buf 0 (B.bytes k cb)
  if B.success k cb = false then pure (-4, buf) else do
  pure (0, buf)

/-- The Windows source as the random source of `picnic_keygen` (/repo/picnic.h:227-233). -/
def BCrypt.rng (B : BCrypt) : Rng := fun k n =>
  match randomBytesWindows B k (zeros n) n with
  | .ok (0, buf) => some buf
  | _ => none

/-- /repo/picnic_impl.c:838-845 `random_bytes_supercop`: `stored` are the bytes that the k-th call of `randombytes` stores.  `randombytes` returns
nothing, so a failure cannot be seen. -/
def randomBytesSupercop (stored : Nat → Nat → Buf) (k : Nat) (buf : Buf) (len : Nat) : M (Int × Buf) := do
  let buf ← wrN buf 0 (stored k len)
  pure (0, buf)

/-- The SUPERCOP source as the random source of `picnic_keygen`, which passes it a buffer of zeros (/repo/picnic.c:219-240). -/
def supercopRng (stored : Nat → Nat → Buf) : Rng := fun k n =>
  match randomBytesSupercop stored k (zeros n) n with
  | .ok (0, buf) => some buf
  | _ => none

end Picnic
