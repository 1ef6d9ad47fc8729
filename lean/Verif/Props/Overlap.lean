import Verif.Proofs.OverlapKeys
import Verif.Props.Cycle

/-
C72: which arguments of a call may overlap, and which memory a call changes.

The functions of Model/Overlap work on one memory `m` of the caller; all objects are given by addresses.  The
specification (Spec/Overlap) speaks of areas of memory; the functions of Model/Api, which work on separate objects, say
what the results ought to be.
-/

namespace Picnic

open Spec Mem

/-- **C72**, `picnic_sign`.  The areas of key, message and signature may lie anywhere and overlap in any way; only the
variable with the length must be apart from the signature.  Whatever a call with separate copies of these areas returns
is what the call in memory returns; it leaves the same bytes in the signature area, the same length, and changes nothing
but the bytes of the signature and the length; nothing at all if it fails. -/
theorem C72_sign (E : Env) (m : Buf) (sk msg mlen sig lenp cap : ℕ) (hk : sk + 104 ≤ m.length) (hm : msg + mlen ≤ m.length)
    (hl : lenp + 8 ≤ m.length) (hcap : cap = leNum (area m lenp 8)) (hs : sig + cap ≤ m.length) (ha : Apart sig cap lenp 8)
    (r : Int) (b : Buf) (n : ℕ)
    (h : picnicSign E (some (skAt m sk)) (area m msg mlen) mlen (area m sig cap) cap = Outcome.ok (r, b, n)) :
    ∃ m', Mem.sign E m sk msg mlen sig lenp = Outcome.ok (r, m') ∧ (r = 0 ∨ r = -1) ∧ area m' sig cap = b ∧
      leNum (area m' lenp 8) = n ∧ (r ≠ 0 → m' = m) ∧ OnlyChanges m m' [(sig, n), (lenp, 8)] := by
  subst hcap
  obtain ⟨⟨r', m'⟩, h1, h2, h3, h4, h5, h6, h7⟩ := sim_sign hk hm hs hl ha _ h
  simp only at h2 h3 h4 h5 h6 h7
  subst h2
  exact ⟨m', h1, h3, h4, h5, h6, h7⟩

/-- **C72**, signing in place: with a valid key at `sk` and room for a signature, a call of `picnic_sign` whose signature
overwrites the message, the key, or both, succeeds (if the search for a challenge ends), and what it leaves in memory
is accepted by `picnic_verify` for the message that was there before the call. -/
theorem C72_in_place (E : Env) (hE : EnvWF E) (m : Buf) (sk msg mlen sig lenp cap n : ℕ)
    (hI : (skAt m sk).params ∈ picnic3Params → InvWF E) (hk : sk + 104 ≤ m.length)
    (hm : msg + mlen ≤ m.length) (hm32 : mlen + 200 ≤ 2 ^ 32) (hl : lenp + 8 ≤ m.length) (hcap : cap = leNum (area m lenp 8))
    (hs : sig + cap ≤ m.length) (ha : Apart sig cap lenp 8) (hn : blockBits (skAt m sk).params = some n)
    (hpad : ZeroPad n (skAt m sk).data) (hv : picnicValidateKeypair E (some (skAt m sk)) (some (skAt m sk).pk) = Outcome.ok 0)
    (hsize : picnicSignatureSize (skAt m sk).params ≤ cap) :
    picnicSign E (some (skAt m sk)) (area m msg mlen) mlen (area m sig cap) cap = Outcome.diverge ∨
    ∃ m' len, Mem.sign E m sk msg mlen sig lenp = Outcome.ok (0, m') ∧ leNum (area m' lenp 8) = len ∧ len ≤ cap ∧
      OnlyChanges m m' [(sig, len), (lenp, 8)] ∧
      picnicVerify E (some (skAt m sk).pk) (area m msg mlen) mlen (area m' sig cap) len = Outcome.ok 0 := by
  have hsk : (skAt m sk).Arrays := by
    refine ⟨?_, ?_, ?_⟩
    · exact area_length (by omega)
    · exact area_length (by omega)
    · exact area_length (by omega)
  have hpa : (skAt m sk).pk.Arrays := ⟨area_length (by omega), area_length (by omega)⟩
  obtain ⟨r, e, -, hr⟩ := C08_validate E hE (skAt m sk) (skAt m sk).pk hsk hpa
  rw [hv] at e
  obtain rfl : (0 : Int) = r := Outcome.ok.inj e
  obtain ⟨hpp, P, hP, hR⟩ := hr.1 rfl
  rw [← hpp] at hP
  have hml := area_length hm
  have hsl := area_length hs
  have key : ∀ b len, picnicSign E (some (skAt m sk)) (area m msg mlen) mlen (area m sig cap) cap = Outcome.ok (0, b, len) →
      len ≤ cap → b.length = cap →
      picnicVerify E (some (skAt m sk).pk) (area m msg mlen) mlen b len = Outcome.ok 0 →
      ∃ m' len, Mem.sign E m sk msg mlen sig lenp = Outcome.ok (0, m') ∧ leNum (area m' lenp 8) = len ∧ len ≤ cap ∧
      OnlyChanges m m' [(sig, len), (lenp, 8)] ∧
      picnicVerify E (some (skAt m sk).pk) (area m msg mlen) mlen (area m' sig cap) len = Outcome.ok 0 := by
    intro b len h1 h2 h3 h4
    obtain ⟨m', g1, -, g3, g4, -, g6⟩ := C72_sign E m sk msg mlen sig lenp cap hk hm hl hcap hs ha 0 b len h1
    exact ⟨m', len, g1, g4, h2, g6, by rw [g3]; exact h4⟩
  have hp : (skAt m sk).params ∈ zkbParams ∨ (skAt m sk).params ∈ picnic3Params := blockBits_cases hn
  rcases hp with hp | hp
  · rcases (C03_zkb E hE (skAt m sk) hsk hp P hP hR (area m msg mlen) mlen (by omega) hm32 (area m sig cap) cap (by omega)
      hsize).1 with h | ⟨b, len, h1, h2, h3⟩
    · exact Or.inl h
    · exact Or.inr (key b len h1 (by omega) (by omega) (C01_sign_verify E hE E.junk E.fuel le_rfl _ hsk hp n hn hpad _ mlen
        (by omega) hm32 _ cap (by omega) b len h1 _ hpa hpp.symm rfl rfl b rfl (by omega)))
  · rcases (C03_p3 E hE (hI hp) (skAt m sk) hsk hp P hP hR (area m msg mlen) mlen (by omega) hm32 (area m sig cap) cap (by omega)
      hsize).1 with h | ⟨b, len, h1, h2, h3⟩
    · exact Or.inl h
    · exact Or.inr (key b len h1 (by omega) (by omega) (C02_sign_verify E hE (hI hp) E.junk E.fuel le_rfl _ hsk hp n hn _ mlen
        (by omega) hm32 _ cap (by omega) b len h1 _ hpa hpp.symm rfl rfl b rfl (by omega)))

/-- **C72**, `picnic_keygen`: if the two key objects are apart, the call leaves in them what it leaves in separate objects
and changes nothing else. -/
theorem C72_keygen (E : Env) (rng : Rng) (m : Buf) (p pk sk : ℕ) (h1 : pk + 68 ≤ m.length) (h2 : sk + 104 ≤ m.length)
    (ha : Apart pk 68 sk 104) (r : Int) (vpk : Option PublicKey) (vsk : Option PrivateKey)
    (h : picnicKeygen E rng p (some (pkAt m pk)) (some (skAt m sk)) = Outcome.ok (r, vpk, vsk)) :
    ∃ m', Mem.keygen E rng m p (some pk) (some sk) = Outcome.ok (r, m') ∧ vpk = some (pkAt m' pk) ∧
      vsk = some (skAt m' sk) ∧ OnlyChanges m m' [(pk, 68), (sk, 104)] := by
  obtain ⟨⟨r', m'⟩, e1, e2, e3, e4⟩ := sim_keygen h1 h2 ha _ h
  simp only [Prod.mk.injEq] at e2 e3
  subst e2
  exact ⟨m', e1, e3.1, e3.2, e4⟩

/-- **C72**, the key functions: if key object and buffer are apart, each does in memory what it does on separate objects
and changes nothing but its output. -/
theorem C72_keys (m : Buf) (key buf L buflen : ℕ) (hb : buf + L ≤ m.length) (hL : buflen ≤ L) :
    (∀ r b, key + 68 ≤ m.length → Apart buf L key 68 →
      picnicWritePublicKey (some (pkAt m key)) (some (area m buf L)) buflen = Outcome.ok (r, b) →
      ∃ m', Mem.writePublicKey m (some key) (some buf) buflen = Outcome.ok (r, m') ∧ b = some (area m' buf L) ∧
        OnlyChanges m m' [(buf, L)]) ∧
    (∀ r b, key + 104 ≤ m.length → Apart buf L key 104 →
      picnicWritePrivateKey (some (skAt m key)) (some (area m buf L)) buflen = Outcome.ok (r, b) →
      ∃ m', Mem.writePrivateKey m (some key) (some buf) buflen = Outcome.ok (r, m') ∧ b = some (area m' buf L) ∧
        OnlyChanges m m' [(buf, L)]) ∧
    (∀ r v, key + 68 ≤ m.length → Apart key 68 buf L →
      picnicReadPublicKey (some (pkAt m key)) (some (area m buf L)) buflen = Outcome.ok (r, v) →
      ∃ m', Mem.readPublicKey m (some key) (some buf) buflen = Outcome.ok (r, m') ∧ v = some (pkAt m' key) ∧
        OnlyChanges m m' [(key, 68)]) ∧
    (∀ r v, key + 104 ≤ m.length → Apart key 104 buf L →
      picnicReadPrivateKey (some (skAt m key)) (some (area m buf L)) buflen = Outcome.ok (r, v) →
      ∃ m', Mem.readPrivateKey m (some key) (some buf) buflen = Outcome.ok (r, m') ∧ v = some (skAt m' key) ∧
        OnlyChanges m m' [(key, 104)]) := by
  refine ⟨fun r b hk ha h => ?_, fun r b hk ha h => ?_, fun r v hk ha h => ?_, fun r v hk ha h => ?_⟩
  · obtain ⟨⟨r', m'⟩, e1, e2, e3, e4⟩ := sim_writePk hk hb ha _ h
    simp only at e2 e3; subst e2; exact ⟨m', e1, e3, e4⟩
  · obtain ⟨⟨r', m'⟩, e1, e2, e3, e4⟩ := sim_writeSk hk hb ha _ h
    simp only at e2 e3; subst e2; exact ⟨m', e1, e3, e4⟩
  · obtain ⟨⟨r', m'⟩, e1, e2, e3, e4⟩ := sim_readPk hk hb ha hL _ h
    simp only at e2 e3; subst e2; exact ⟨m', e1, e3, e4⟩
  · obtain ⟨⟨r', m'⟩, e1, e2, e3, e4⟩ := sim_readSk hk hb ha hL _ h
    simp only at e2 e3; subst e2; exact ⟨m', e1, e3, e4⟩

/-- **C72**, the finding about `picnic_keygen`: with the public key inside of the private key (`picnic_keygen(p, &sk.pk,
&sk)`) every successful generation ends in undefined behaviour, as `memcpy` copies the public key to itself. -/
theorem C72_keygen_same (E : Env) (hE : EnvWF E) (rng : Rng) (hrng : RngLen rng) (m : Buf) (p sk n : ℕ)
    (h2 : sk + 104 ≤ m.length) (hn : blockBits p = some n) (r0 r1 : Buf) (hr0 : rng 0 (bytesFor n) = some r0)
    (hr1 : rng 1 (bytesFor n) = some r1) :
    Mem.keygen E rng m p (some (sk + 36)) (some sk) = Outcome.ub UB.overlap := by
  obtain ⟨P, hP, rfl⟩ := getParamSet_of hn
  have hWF := paramsWF_of hP
  have hb := hWF.bytes
  have hmax := hWF.nMax
  have hw := hWF.words
  have hl0 : r0.length = P.stateSizeBytes := by rw [hrng _ _ _ hr0, hb, bytesFor]
  have hl1 : r1.length = P.stateSizeBytes := by rw [hrng _ _ _ hr1, hb, bytesFor]
  have hbf : bytesFor P.stateSizeBits = P.stateSizeBytes := by rw [hb, bytesFor]
  rw [hbf] at hr0 hr1
  have hv : isValidParams p = true := isValid_of.2 (by rw [hP]; rfl)
  have wr : ∀ {m1 : Buf} {q : ℕ} {d : Buf}, m1.length = m.length → q + d.length ≤ m.length →
      ∃ m', wrN m1 q d = Outcome.ok m' ∧ m'.length = m.length := fun {m1 q d} h1 h2 =>
    ⟨_, wrN_put (by omega), (put_length (by omega)).trans h1⟩
  have zt : ∀ {m1 : Buf} {q : ℕ}, m1.length = m.length → q + 32 ≤ m.length →
      ∃ m', zeroTrailing m1 q P.stateSizeBits = Outcome.ok m' ∧ m'.length = m.length := by
    intro m1 q h1 h2
    unfold zeroTrailing
    rw [PICNIC_MAX_LOWMC_BLOCK_SIZE, rdN_area (by omega), ok_bind]
    have hal : (area m1 q 32).length = 32 := area_length (by omega)
    obtain ⟨b, e1, e2, -⟩ := zeroTrailingBits_ok (b := area m1 q 32) (n := P.stateSizeBits) (by omega)
    rw [e1, ok_bind]
    exact wr h1 (by omega)
  unfold Mem.keygen
  rw [if_neg (by simpa using hv)]
  simp only [hP, hr0, hr1]
  have z1 : (zeros sizeofPk).length = 68 := rfl
  have z2 : (zeros sizeofSk).length = 104 := rfl
  obtain ⟨m1, e1, l1⟩ := wr (m1 := m) (q := sk + 36) (d := zeros sizeofPk) rfl (by omega)
  rw [e1, ok_bind]
  obtain ⟨m2, e2, l2⟩ := wr (q := sk) (d := zeros sizeofSk) l1 (by omega)
  rw [e2, ok_bind]
  have hi := intBytes_length 4 p
  obtain ⟨m3, e3, l3⟩ := wr (q := sk) (d := intBytes 4 p) l2 (by omega)
  rw [setParams, e3, ok_bind]
  obtain ⟨m4, e4, l4⟩ := wr (q := sk + 36) (d := intBytes 4 p) l3 (by omega)
  rw [setParams, e4, ok_bind]
  obtain ⟨m5, e5, l5⟩ := wr (q := data sk) (d := r0) l4 (by rw [data]; omega)
  rw [e5, ok_bind]
  obtain ⟨m6, e6, l6⟩ := zt (q := data sk) l5 (by rw [data]; omega)
  rw [e6, ok_bind]
  obtain ⟨m7, e7, l7⟩ := wr (q := plaintext (sk + 36)) (d := r1) l6 (by rw [plaintext]; omega)
  rw [e7, ok_bind]
  obtain ⟨m8, e8, l8⟩ := zt (q := plaintext (sk + 36)) l7 (by rw [plaintext]; omega)
  rw [e8, ok_bind]
  have a1 : (area m8 (sk + 36 + 4) 32).length = 32 := area_length (by omega)
  have a2 : (area m8 (sk + 36 + 36) 32).length = 32 := area_length (by omega)
  have a3 : (area m8 (sk + 4) 32).length = 32 := area_length (by omega)
  obtain ⟨m9, e9, h9, rfl⟩ := sim_lowMC (E := E) (P := P) (m := m8) (pt := sk + 36 + 4) (out := sk + 36 + 36) (key := sk + 4)
    (by omega) (by omega) (by omega) (by unfold Apart; omega) (by unfold Apart; omega) _
    (lowMCEnc_ok hWF (hE.lowmc p P hP) (by omega) (by omega) (by omega))
  have e9' : Mem.lowMCEnc E P m8 (plaintext (sk + 36)) (ciphertext (sk + 36)) (data sk) = _ := e9
  rw [e9', ok_bind]
  unfold copy pkOf
  rw [if_neg (by simp only [PICNIC_MAX_LOWMC_BLOCK_SIZE, sizeofPk]; omega)]
  rfl

/-- The sizes of the blocks: every parameter set has between 16 and 32 bytes. -/
theorem stateBytes_ge {p : ℕ} {P : Params} (hP : getParamSet p = some P) : 16 ≤ P.stateSizeBytes := by
  have hn := blockBits_of hP
  have := (paramsWF_of hP).bytes
  have h : ∀ p n, blockBits p = some n → 128 ≤ n := by
    intro p n h
    unfold blockBits at h
    split at h <;> simp at h <;> omega
  have := h _ _ hn
  omega

/-- **C72**, the key functions on a buffer that starts where the key object starts.  Writing a key over itself and reading
a public key over itself are undefined behaviour (`memcpy` between overlapping areas); reading a private key over itself
fails, and the encoded key is gone. -/
theorem C72_same_place (m : Buf) (key buflen n : ℕ) (hk : key + 104 ≤ m.length) :
    (blockBits (pkAt m key).params = some n → 1 + 2 * bytesFor n ≤ buflen →
      Mem.writePublicKey m (some key) (some key) buflen = Outcome.ub UB.overlap) ∧
    (blockBits (skAt m key).params = some n → 1 + 3 * bytesFor n ≤ buflen →
      Mem.writePrivateKey m (some key) (some key) buflen = Outcome.ub UB.overlap) ∧
    (∀ b : Byte, m[key]? = some b → blockBits b.toNat = some n → 1 + 2 * bytesFor n ≤ buflen →
      Mem.readPublicKey m (some key) (some key) buflen = Outcome.ub UB.overlap) ∧
    (∀ b : Byte, m[key]? = some b → blockBits b.toNat = some n → 1 ≤ buflen →
      ∃ m', Mem.readPrivateKey m (some key) (some key) buflen = Outcome.ok (-1, m') ∧
        area m' key 104 = List.replicate 104 0) := by
  refine ⟨fun hn hb => ?_, fun hn hb => ?_, fun b h0 hn hb => ?_, fun b h0 hn hb => ?_⟩
  all_goals
    obtain ⟨P, hP, rfl⟩ := getParamSet_of hn
    have hWF := paramsWF_of hP
    have hbb : bytesFor P.stateSizeBits = P.stateSizeBytes := by rw [hWF.bytes, bytesFor]
    try rw [hbb] at hb
    have hg := stateBytes_ge hP
    have hle := stateBytes_le hP
  · unfold Mem.writePublicKey
    simp only
    rw [getParams_pk (by omega), ok_bind, hP]
    simp only
    rw [if_neg (by omega), ok_bind, wr_put_ok (by omega), ok_bind]
    have l1 : (put m key [BitVec.ofNat 8 (pkAt m key).params]).length = m.length := put_length (by simp; omega)
    rw [ciphertext, PICNIC_MAX_LOWMC_BLOCK_SIZE, copy_put (by omega) (by omega) (by unfold Apart; omega), ok_bind]
    unfold copy plaintext
    rw [if_neg (by omega)]
    rfl
  · unfold Mem.writePrivateKey
    simp only
    rw [getParams_sk (by omega), ok_bind, hP]
    simp only
    rw [if_neg (by omega), ok_bind, wr_put_ok (by omega), ok_bind]
    unfold copy data
    rw [if_neg (by omega)]
    rfl
  · have hrd : rd m key = Outcome.ok b := by unfold rd; rw [h0]
    have hv : isValidParams b.toNat = true := isValid_of.2 (by rw [hP]; rfl)
    unfold Mem.readPublicKey
    simp only
    rw [if_neg (by omega), hrd, ok_bind, if_neg (by simpa using hv), ok_bind, setParams_put (by omega), ok_bind]
    have l1 : (put m key (intBytes 4 b.toNat)).length = m.length := put_length (by rw [intBytes_length]; omega)
    rw [getParams_pk (by omega), ok_bind, pkAt_put_params (by omega) (isValid_lt (by simpa using hv))]
    simp only [hP]
    rw [if_neg (by omega), ciphertext, PICNIC_MAX_LOWMC_BLOCK_SIZE, copy_put (by omega) (by omega) (by unfold Apart; omega), ok_bind]
    unfold copy plaintext
    rw [if_neg (by omega)]
    rfl
  · have hrd : rd m key = Outcome.ok b := by unfold rd; rw [h0]
    have hv : isValidParams b.toNat = true := isValid_of.2 (by rw [hP]; rfl)
    have z2 : (zeros sizeofSk).length = 104 := rfl
    unfold Mem.readPrivateKey
    simp only
    rw [if_neg (by omega), hrd, ok_bind, if_neg (by simpa using hv), wrN_put (by omega), ok_bind]
    have l1 : (put m key (zeros sizeofSk)).length = m.length := put_length (by omega)
    have hrd2 : rd (put m key (zeros sizeofSk)) key = Outcome.ok 0 := by
      unfold rd
      rw [put_get (by omega), if_pos (by omega), Nat.sub_self]
      rfl
    have hz : area (put m key (zeros sizeofSk)) key 104 = zeros 104 := area_put_eq (by omega) rfl
    have p1 : put (put m key (zeros sizeofSk)) key (intBytes 4 0) = put m key (zeros sizeofSk) := by
      have := put_area (m := put m key (zeros sizeofSk)) (p := key) (n := 4) (by omega)
      rw [area_put_part (by omega) (by omega) (by omega), Nat.sub_self] at this
      exact this
    have p2 : put (put m key (zeros sizeofSk)) (key + 36) (intBytes 4 0) = put m key (zeros sizeofSk) := by
      have := put_area (m := put m key (zeros sizeofSk)) (p := key + 36) (n := 4) (by omega)
      rw [area_put_part (by omega) (by omega) (by omega), Nat.add_sub_cancel_left] at this
      exact this
    rw [hrd2, ok_bind, setParams_put (by omega), show (0 : Byte).toNat = 0 from rfl, p1, ok_bind, hrd2, ok_bind,
      setParams_put (by rw [pkOf, PICNIC_MAX_LOWMC_BLOCK_SIZE]; omega), show (0 : Byte).toNat = 0 from rfl,
      show pkOf key = key + 36 from rfl, p2, ok_bind, getParams_sk (by omega), ok_bind,
      show skAt (put m key (zeros sizeofSk)) key = PrivateKey.zero from skAt_zero hk]
    exact ⟨_, rfl, hz⟩

/-- The memory of the example: a public key object at 0, a private key object at 68, the length at 172, and at 180 a buffer
for the signature that starts with a message of 500 bytes. -/
def overlapMem (size : ℕ) : Buf := zeros 172 ++ intBytes 8 size ++ List.replicate size 1

/-- **C72**, a concrete run for every ZKB++ parameter set: keys are generated into memory, the message at the beginning of
the signature buffer is signed and overwritten by the signature, and the signature verifies with the public key in
memory. -/
theorem C72_example (p : ℕ) (hp : p ∈ zkbParams) :
    ∃ m1 m2 len, Mem.keygen zeroEnv (fun _ n => some (List.replicate n 0xff)) (overlapMem (picnicSignatureSize p)) p (some 0)
        (some 68) = Outcome.ok (0, m1) ∧
      Mem.sign zeroEnv m1 68 180 500 180 172 = Outcome.ok (0, m2) ∧ len = leNum (area m2 172 8) ∧
      picnicVerify zeroEnv (some (pkAt m2 0)) (List.replicate 500 1) 500 (area m2 180 (picnicSignatureSize p)) len =
        Outcome.ok 0 := by
  obtain ⟨P, hP, h3⟩ := getParamSet_zkb hp
  set S := picnicSignatureSize p with hS
  have hS5 : 500 ≤ S ∧ S < 2 ^ 64 := by
    rw [hS]
    simp only [zkbParams, List.mem_cons, List.not_mem_nil, or_false] at hp
    rcases hp with rfl | rfl | rfl | rfl | rfl | rfl | rfl | rfl | rfl <;> decide
  have hn := blockBits_of hP
  have hlen : (overlapMem S).length = 180 + S := by
    unfold overlapMem
    rw [List.length_append, List.length_append, intBytes_length, List.length_replicate, zeros, List.length_replicate]
  obtain ⟨vpk, vsk, hg, g1, g2, g3, g4, g5, g6, g7, g8, g9⟩ := C07_keygen zeroEnv zeroEnv_wf
    (fun _ n => some (List.replicate n 0xff)) (fun k n r h => by injection h with h; subst h; simp) p P.stateSizeBits hn
    (pkAt (overlapMem S) 0) (skAt (overlapMem S) 68) _ _ rfl rfl
  obtain ⟨m1, e1, e2, e3, e4⟩ := C72_keygen _ _ (overlapMem S) p 0 68 (by omega) (by omega) (by unfold Apart; omega) _ _ _ hg
  obtain rfl := Option.some.inj e2
  obtain rfl := Option.some.inj e3
  have l1 := e4.1
  have same : ∀ q k, 172 ≤ q → area m1 q k = area (overlapMem S) q k := by
    intro q k hq
    apply List.ext_getElem?
    intro i
    rw [area_get, area_get]
    split
    · refine e4.2 _ fun a ha => ?_
      simp only [List.mem_cons, List.not_mem_nil, or_false] at ha
      rcases ha with rfl | rfl <;> simp only <;> omega
    · rfl
  have hz : (zeros 172).length = 172 := rfl
  have hi := intBytes_length 8 S
  have hlenp : S = leNum (area m1 172 8) := by
    rw [same _ _ (by omega)]
    have : area (overlapMem S) 172 8 = intBytes 8 S := by
      unfold area overlapMem
      rw [List.append_assoc, List.drop_left' hz, List.take_left' hi]
    rw [this, leNum_intBytes, Nat.mod_eq_of_lt]
    have : (256 : ℕ) ^ 8 = 2 ^ 64 := by norm_num
    omega
  have hmsg : area m1 180 500 = List.replicate 500 1 := by
    rw [same _ _ (by omega)]
    unfold area overlapMem
    rw [List.drop_left' (by simp [hz, hi]), List.take_replicate]
    congr 1; omega
  have hWF := paramsWF_of hP
  rcases C72_in_place zeroEnv zeroEnv_wf m1 68 180 500 180 172 S P.stateSizeBits
    (fun h => by rw [g2] at h; exact absurd h (by
      simp only [zkbParams, List.mem_cons, List.not_mem_nil, or_false] at hp
      rcases hp with rfl | rfl | rfl | rfl | rfl | rfl | rfl | rfl | rfl <;> decide))
    (by omega) (by omega) (by norm_num) (by omega) hlenp (by omega) (by unfold Apart; omega) (by rw [g2]; exact hn)
    (zeroPad_iff.2 fun i h1 _ => by rw [g6, if_neg (by omega)]) (by rw [g3]; exact g9) (by rw [g2]) with h | ⟨m2, len, h1, h2, h4, h5, h6⟩
  · exfalso
    obtain ⟨r, e, -, hr⟩ := C08_validate zeroEnv zeroEnv_wf (skAt m1 68) (pkAt m1 0) g5 g4
    rw [g9] at e
    obtain rfl : (0 : Int) = r := Outcome.ok.inj e
    obtain ⟨hpp, P', hP', hR⟩ := hr.1 rfl
    rw [g1, hP] at hP'
    obtain rfl : P = P' := by simpa using hP'
    have hml : (area m1 180 500).length = 500 := area_length (by omega)
    have hsl : (area m1 180 S).length = S := area_length (by omega)
    refine (C03_zkb zeroEnv zeroEnv_wf (skAt m1 68) g5 (g2 ▸ hp) P (g2 ▸ hP) (g3 ▸ hR) (area m1 180 500) 500 (by omega)
      (by norm_num) (area m1 180 S) S (by omega) (by rw [g2])).2 (fun d _ => ?_) h
    have hdig := (zkbWF_of hP h3).digPos
    have hT := (zkbWF_of hP h3).T
    refine Nat.le_trans ?_ (zeroEnv_stream hP 999 d)
    have : 4 * 1 * 999 ≤ 4 * P.digestSizeBytes * 999 := by
      apply Nat.mul_le_mul_right
      omega
    omega
  · refine ⟨m1, m2, len, e1, h1, h2.symm, ?_⟩
    have hpk : pkAt m2 0 = pkAt m1 0 := by
      have ar : ∀ q k, q + k ≤ 172 → area m2 q k = area m1 q k := by
        intro q k hq
        apply List.ext_getElem?
        intro i
        rw [area_get, area_get]
        split
        · refine h5.2 _ fun a ha => ?_
          simp only [List.mem_cons, List.not_mem_nil, or_false] at ha
          rcases ha with rfl | rfl <;> simp only <;> omega
        · rfl
      unfold pkAt
      rw [ar _ _ (by omega), ar _ _ (by omega), ar _ _ (by omega)]
    rw [hpk, ← g3, ← hmsg]
    exact h6

end Picnic
