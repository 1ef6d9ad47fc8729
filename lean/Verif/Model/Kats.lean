import Verif.Model.Cycle

/-
The known-answer test program /repo/kats_test.c.  A file is the list of its lines as `getline` delivers them: with the newline, so the result of
`getline` is the length of the line; in memory a zero byte follows.
-/

namespace Picnic

namespace Kats

/-- /repo/kats_test.c:46-53 `test_vector_t` -/
structure TestVector where
  mlen : Nat
  msg : Option Buf
  pk : Buf
  sk : Buf
  smlen : Nat
  sm : Option Buf

/-- /repo/kats_test.c:55-59, :226: a cleared vector. -/
def TestVector.zero : TestVector :=
  { mlen := 0, msg := none, pk := zeros PICNIC_MAX_PUBLICKEY_SIZE, sk := zeros PICNIC_MAX_PRIVATEKEY_SIZE, smlen := 0, sm := none }

/-- /repo/kats_test.c:61-71 `parse_hex_c` -/
def parseHexC (c : Byte) : Byte :=
  if 0x30 ≤ c.toNat ∧ c.toNat ≤ 0x39 then c - 0x30
  else if 0x61 ≤ c.toNat ∧ c.toNat ≤ 0x66 then 10 + c - 0x61
  else if 0x41 ≤ c.toNat ∧ c.toNat ≤ 0x46 then 10 + c - 0x41
  else 0xff

/-- /repo/kats_test.c:73-84 `parse_hex`; `dst` may be NULL.  The result is `none` for -1. -/
def parseHex (dst : Option Buf) (src : Buf) (soff len : Nat) : M (Option (Option Buf)) :=
  loop (fun s (st : Option (Option Buf)) =>
    match st with
    | none => pure none
    | some dst => do
      let c0 ← rd src (soff + 2 * s)
      let c1 ← rd src (soff + 2 * s + 1)
      let high := parseHexC c0
      let low := parseHexC c1
      if high = 0xff ∨ low = 0xff then pure none
      else
        match dst with
        | none => .ub .nullDeref
        | some dst => do
          let dst ← wr dst s (high <<< 4 ||| low)
          pure (some (some dst))) len (some dst)

/-- `calloc(1, n)`: NULL if the size exceeds PTRDIFF_MAX. -/
def calloc1 (n : Nat) : Option Buf := if n < 2 ^ 63 then some (zeros n) else none

/-- `isspace` in the C locale -/
def isSpace (c : Byte) : Bool := c.toNat == 32 || (9 ≤ c.toNat && c.toNat ≤ 13)

/-- `isdigit` -/
def isDigit (c : Byte) : Bool := 0x30 ≤ c.toNat && c.toNat ≤ 0x39

/-- `sscanf(s, "%zu", &v)`: the value, or `none` if the number of conversions is not 1.  Values out of range: ULONG_MAX, as the GNU library does. -/
def scanZu (s : Buf) : Option Nat :=
  let s := s.dropWhile isSpace
  let neg := s.head? == some 0x2d
  let s := if s.head? == some 0x2d || s.head? == some 0x2b then s.drop 1 else s
  let ds := s.takeWhile isDigit
  if ds = [] then none
  else
    let v := ds.foldl (fun a c => 10 * a + (c.toNat - 0x30)) 0
    some (if 2 ^ 64 ≤ v then 2 ^ 64 - 1 else if neg then (2 ^ 64 - v) % 2 ^ 64 else v)

/-- "count = " -/
def sCount : Buf := [0x63, 0x6f, 0x75, 0x6e, 0x74, 0x20, 0x3d, 0x20]
/-- "seed = " -/
def sSeed : Buf := [0x73, 0x65, 0x65, 0x64, 0x20, 0x3d, 0x20]
/-- "mlen = " -/
def sMlen : Buf := [0x6d, 0x6c, 0x65, 0x6e, 0x20, 0x3d, 0x20]
/-- "msg = " -/
def sMsg : Buf := [0x6d, 0x73, 0x67, 0x20, 0x3d, 0x20]
/-- "pk = " -/
def sPk : Buf := [0x70, 0x6b, 0x20, 0x3d, 0x20]
/-- "sk = " -/
def sSk : Buf := [0x73, 0x6b, 0x20, 0x3d, 0x20]
/-- "smlen = " -/
def sSmlen : Buf := [0x73, 0x6d, 0x6c, 0x65, 0x6e, 0x20, 0x3d, 0x20]
/-- "sm = " -/
def sSm : Buf := [0x73, 0x6d, 0x20, 0x3d, 0x20]

/-- `strncmp(line, p, strlen(p)) == 0` -/
def starts (line p : Buf) : Bool := line.take p.length == p

/-- /repo/kats_test.c:148-150: the checks at the end. -/
def complete (tv : TestVector) : Bool := !(tv.mlen == 0) && !(tv.smlen == 0) && tv.msg.isSome && tv.sm.isSome

/-- /repo/kats_test.c:86-159 `read_test_vector`: the vector, or `none` for -1 (the vector is cleared), and the lines that follow. -/
def readTestVector (pks sks : Nat) : Bool → TestVector → List Buf → M (Option TestVector × List Buf)
  | _, tv, [] => pure (if complete tv then some tv else none, [])
  | expect, tv, line :: rest =>
    if line.length ≤ 1 ∨ line.head? = some 0x23 then
      if expect then pure (none, rest) else readTestVector pks sks expect tv rest
    else if starts line sCount then readTestVector pks sks true tv rest
    else if starts line sSeed then readTestVector pks sks expect tv rest
    else if starts line sMlen then
      match scanZu (line.drop 7) with
      | none => pure (none, rest)
      | some v => readTestVector pks sks expect { tv with mlen := v } rest
    else if starts line sMsg ∧ tv.mlen ≠ 0 ∧ (2 * tv.mlen + 6) % 2 ^ 64 ≤ line.length then do
      let r ← parseHex (calloc1 tv.mlen) (line ++ [0]) 6 tv.mlen
      match r with
      | none => pure (none, rest)
      | some msg => readTestVector pks sks expect { tv with msg := msg } rest
    else if starts line sPk ∧ 2 * pks + 5 ≤ line.length then do
      let r ← parseHex (some tv.pk) (line ++ [0]) 5 pks
      match r with
      | none => pure (none, rest)
      | some pk => readTestVector pks sks expect { tv with pk := pk.getD [] } rest
    else if starts line sSk ∧ 2 * sks + 5 ≤ line.length then do
      let r ← parseHex (some tv.sk) (line ++ [0]) 5 sks
      match r with
      | none => pure (none, rest)
      | some sk => readTestVector pks sks expect { tv with sk := sk.getD [] } rest
    else if starts line sSmlen then
      match scanZu (line.drop 8) with
      | none => pure (none, rest)
      | some v => readTestVector pks sks expect { tv with smlen := v } rest
    else if starts line sSm ∧ tv.smlen ≠ 0 ∧ (2 * tv.smlen + 5) % 2 ^ 64 ≤ line.length then do
      let r ← parseHex (calloc1 tv.smlen) (line ++ [0]) 5 tv.smlen
      match r with
      | none => pure (none, rest)
      | some sm =>
        let tv := { tv with sm := sm }
        pure (if complete tv then some tv else none, rest)
    else pure (none, rest)

/-- /repo/kats_test.c:161-216 `run_picnic_test`.  `sig` is the array from the position of the signature on.  `malloc` succeeds. -/
def runPicnicTest (E : Env) (J : CycleJunk) (msg : Buf) (msg_len : Nat) (pk : Buf) (pk_len : Nat) (sk : Buf) (sk_len : Nat) (sig : Buf)
    (sig_len : Nat) : M Int := do
  let signature_len := (sig_len + 5000) % 2 ^ 64
  let signature := (List.range signature_len).map J.sig
  let (ret, private_key) ← picnicReadPrivateKey (some J.sk) (some sk) sk_len
  if ret ≠ 0 then pure 0 else do
  let (ret, public_key) ← picnicReadPublicKey (some J.pk) (some pk) pk_len
  if ret ≠ 0 then pure 0 else do
  let ret ← picnicValidateKeypair { E with junk := J.call 0 } private_key public_key
  if ret ≠ 0 then pure 0 else do
  let (ret, signature, signature_len) ← picnicSign { E with junk := J.call 1 } private_key msg msg_len signature signature_len
  if ret ≠ 0 then pure 0 else do
  if signature_len ≠ sig_len then pure 0 else do
  let eq ← memeq sig signature signature_len
  if !eq then pure 0 else do
  let ret ← picnicVerify { E with junk := J.call 2 } public_key msg msg_len sig sig_len
  if ret ≠ 0 then pure 0 else pure 1

/-- /repo/kats_test.c:228-233: the test of one vector.  The pointer `tv.sm + offset` must not leave the array. -/
def runVector (E : Env) (J : CycleJunk) (pks sks : Nat) (tv : TestVector) : M Int := do
  let offset := tv.mlen + 4
  let sm ← deref tv.sm
  let msg ← deref tv.msg
  if sm.length < offset then .ub .oobRead
  else runPicnicTest E J msg tv.mlen tv.pk pks tv.sk sks (sm.drop offset) ((tv.smlen + (2 ^ 64 - offset)) % 2 ^ 64)

/-- /repo/kats_test.c:227-235, the loop over the vectors of a file; `vectors_run` and `vectors_succeeded` are counted up.  The first argument bounds the
number of vectors. -/
def runVectors (E : Env) (J : Nat → CycleJunk) (pks sks : Nat) : Nat → List Buf → Nat → Nat → M Int
  | 0, _, _, _ => .diverge
  | n + 1, lines, vectors_run, vectors_succeeded => do
    let (tv, rest) ← readTestVector pks sks false TestVector.zero lines
    match tv with
    | none => pure (if vectors_run ≠ 0 ∧ vectors_succeeded = vectors_run then 1 else 0)
    | some tv => do
      let r ← runVector E (J vectors_run) pks sks tv
      runVectors E J pks sks n rest (vectors_run + 1) (vectors_succeeded + r.toNat)

/-- /repo/kats_test.c:218-239 `run_test_vectors_from_file`; `none` is a file that cannot be opened.  A vector takes at least one line. -/
def runFile (E : Env) (J : Nat → CycleJunk) (pks sks : Nat) (file : Option (List Buf)) : M Int :=
  match file with
  | none => pure 0
  | some lines => runVectors E J pks sks (lines.length + 1) lines 0 0

/-- /repo/kats_test.c:22-33,43-44,241-299: the sizes of the keys used for parameter set `p`. -/
def keySizes (p : Nat) : Nat × Nat :=
  let b := if p = 1 ∨ p = 2 then 16 else if p = 3 ∨ p = 4 ∨ p = 8 ∨ p = 11 then 24 else if p = 7 ∨ p = 10 then 17 else 32
  (1 + 2 * b, 1 + 3 * b)

/-- /repo/kats_test.c:304-334 `main`: the return value, for the twelve files. -/
def main (E : Env) (J : Nat → Nat → CycleJunk) (files : Nat → Option (List Buf)) : M Int :=
  loop (fun s ret => do
    let p := s + 1
    let t ← runFile E (J p) (keySizes p).1 (keySizes p).2 (files p)
    pure (if t = 0 then -1 else ret)) 12 0

end Kats

end Picnic
