import Verif.Proofs.KatsSign
import Verif.Props.Keys
import Verif.Props.ZkbDecode

/-
Property C61: the program for known-answer tests accepts a file exactly if the vectors in it are those of the library.
-/

namespace Picnic

open Spec Spec.Challenge Kats Spec.Kats

/-! ### One vector -/

theorem pkEncoding_unique {b : Buf} {p p' : ℕ} {ct pt ct' pt' : Buf} (h : PkEncoding b p ct pt) (h' : PkEncoding b p' ct' pt') :
    p = p' ∧ ct = ct' ∧ pt = pt' := by
  obtain ⟨n, rest, hn, rfl, h1, h2, -⟩ := h
  obtain ⟨n', rest', hn', e, h1', h2', -⟩ := h'
  injection e with e1 e2
  have hlt : ∀ q m, blockBits q = some m → q < 256 := fun q m h => by
    unfold blockBits at h
    split at h <;> simp only [Option.some.injEq, reduceCtorEq] at h <;> omega
  obtain rfl : p = p' := by
    have := congrArg BitVec.toNat e1
    rw [BitVec.toNat_ofNat, BitVec.toNat_ofNat, Nat.mod_eq_of_lt (hlt _ _ hn), Nat.mod_eq_of_lt (hlt _ _ hn')] at this
    exact this
  obtain rfl : n = n' := Option.some.inj (hn.symm.trans hn')
  rw [List.append_assoc, List.append_assoc] at e2
  obtain ⟨r1, e2⟩ := List.append_inj e2 (by omega)
  obtain ⟨r2, -⟩ := List.append_inj e2 (by omega)
  exact ⟨rfl, r1, r2⟩

theorem skEncoding_unique {b : Buf} {p p' : ℕ} {k ct pt k' ct' pt' : Buf} (h : SkEncoding b p k ct pt) (h' : SkEncoding b p' k' ct' pt') :
    p = p' ∧ k = k' ∧ ct = ct' ∧ pt = pt' := by
  obtain ⟨n, rest, hn, rfl, h0, h1, h2, -⟩ := h
  obtain ⟨n', rest', hn', e, h0', h1', h2', -⟩ := h'
  injection e with e1 e2
  have hlt : ∀ q m, blockBits q = some m → q < 256 := fun q m h => by
    unfold blockBits at h
    split at h <;> simp only [Option.some.injEq, reduceCtorEq] at h <;> omega
  obtain rfl : p = p' := by
    have := congrArg BitVec.toNat e1
    rw [BitVec.toNat_ofNat, BitVec.toNat_ofNat, Nat.mod_eq_of_lt (hlt _ _ hn), Nat.mod_eq_of_lt (hlt _ _ hn')] at this
    exact this
  obtain rfl : n = n' := Option.some.inj (hn.symm.trans hn')
  rw [List.append_assoc, List.append_assoc, List.append_assoc, List.append_assoc] at e2
  obtain ⟨r0, e2⟩ := List.append_inj e2 (by omega)
  obtain ⟨r1, e2⟩ := List.append_inj e2 (by omega)
  obtain ⟨r2, -⟩ := List.append_inj e2 (by omega)
  exact ⟨rfl, r0, r1, r2⟩

/-- Reading an encoded public key at the start of an array. -/
theorem read_pk_enc (J : PublicKey) (hJ : J.Arrays) {b tail : Buf} {p n : ℕ} {ct pt : Buf} (hn : blockBits p = some n) (h : PkEncoding b p ct pt) :
    ∃ pk : PublicKey, picnicReadPublicKey (some J) (some (b ++ tail)) b.length = Outcome.ok (0, some pk) ∧ pk.Arrays ∧ pk.params = p ∧
      pk.ciphertext.take (bytesFor n) = ct ∧ pk.plaintext.take (bytesFor n) = pt := by
  obtain ⟨r, pk, e, -, hiff, hok⟩ := C12_read_public_key J hJ (b ++ tail) b.length (by simp)
  rw [List.take_left] at hiff hok
  have hr := hiff.2 ⟨_, _, _, h⟩
  obtain ⟨n', hn', henc, ha⟩ := hok hr
  obtain ⟨h1, h2, h3⟩ := pkEncoding_unique h henc
  rw [← h1, hn] at hn'
  obtain rfl := Option.some.inj hn'
  exact ⟨pk, by rw [e, hr], ha, h1.symm, h2.symm, h3.symm⟩

/-- Reading an encoded private key at the start of an array; the result depends only on the key. -/
theorem read_sk_enc (J J' : PrivateKey) {b tail tail' : Buf} {p n : ℕ} {k ct pt : Buf} (hn : blockBits p = some n) (h : SkEncoding b p k ct pt) :
    ∃ sk : PrivateKey, picnicReadPrivateKey (some J) (some (b ++ tail)) b.length = Outcome.ok (0, some sk) ∧
      picnicReadPrivateKey (some J') (some (b ++ tail')) b.length = Outcome.ok (0, some sk) ∧ sk.Arrays ∧ sk.params = p ∧ sk.pk.params = p ∧
      sk.data.take (bytesFor n) = k ∧ sk.pk.ciphertext.take (bytesFor n) = ct ∧ sk.pk.plaintext.take (bytesFor n) = pt := by
  have one : ∀ (J : PrivateKey) (tail : Buf), ∃ sk : PrivateKey, picnicReadPrivateKey (some J) (some (b ++ tail)) b.length = Outcome.ok (0, some sk) ∧
      sk.Arrays ∧ sk = ⟨p, k ++ List.replicate (32 - bytesFor n) 0, ⟨p, pt ++ List.replicate (32 - bytesFor n) 0, ct ++ List.replicate (32 - bytesFor n) 0⟩⟩ := by
    intro J tail
    obtain ⟨r, sk, e, -, hiff, hok⟩ := C12_read_private_key J (b ++ tail) b.length (by simp)
    rw [List.take_left] at hiff hok
    have hr := hiff.2 ⟨_, _, _, _, h⟩
    obtain ⟨n', hn', hpp, henc, ha, d1, d2, d3⟩ := hok hr
    obtain ⟨h1, h2, h3, h4⟩ := skEncoding_unique h henc
    rw [← h1, hn] at hn'
    obtain rfl := Option.some.inj hn'
    refine ⟨sk, by rw [e, hr], ha, ?_⟩
    obtain ⟨skp, skd, ⟨pkp, pkt, pkc⟩⟩ := sk
    simp only at hpp h1 h2 h3 h4 d1 d2 d3
    rw [h2, h3, h4]
    congr 1
    · exact h1.symm
    · rw [← d1, List.take_append_drop]
    · congr 1
      · rw [hpp, h1]
      · rw [← d3, List.take_append_drop]
      · rw [← d2, List.take_append_drop]
  obtain ⟨sk, e1, ha, rfl⟩ := one J tail
  obtain ⟨sk', e2, -, rfl⟩ := one J' tail'
  obtain ⟨n', rest, hn', rfl, l0, l1, l2, -⟩ := h
  rw [hn] at hn'
  obtain rfl := Option.some.inj hn'
  exact ⟨_, e1, e2, ha, rfl, rfl, List.take_left' l0, List.take_left' l1, List.take_left' l2⟩

/-- **C61**, the vectors: for a vector whose keys are encodings that belong together and form a key pair, let `sig` be the signature that `picnic_sign`
produces in a buffer of `picnic_signature_size` bytes.  The vector is accepted exactly if it contains this signature and, for the ZKB++ parameter sets,
this signature is at most 5000 bytes shorter than `picnic_signature_size`: the program then provides `sig_len + 5000` bytes, which is not enough for
`picnic_sign`. -/
theorem C61_vector (E : Env) (hE : EnvWF E) (J : CycleJunk) (hJ : J.pk.Arrays) (p n : ℕ) (hI : p ∈ picnic3Params → InvWF E) (hn : blockBits p = some n)
    (v : Vec) (hm : v.msg.length + 200 ≤ 2 ^ 32) (hl : v.sig.length < 2 ^ 60) (k ct pt : Buf) (h1 : PkEncoding v.pk p ct pt)
    (h2 : SkEncoding v.sk p k ct pt) (P : Params) (hP : getParamSet p = some P) (hR : Relation P (E.lowmc P) k pt ct) :
    ∃ sk, picnicReadPrivateKey (some J.sk) (some v.sk) v.sk.length = Outcome.ok (0, some sk) ∧
      ((cycleSign E J p sk v.msg = Outcome.diverge ∧ judge E J v = Outcome.diverge) ∨
      ∃ sig len, cycleSign E J p sk v.msg = Outcome.ok (0, sig, len) ∧ len ≤ sig.length ∧
        judge E J v = Outcome.ok (if v.sig = sig.take len ∧ (p ∈ zkbParams → picnicSignatureSize p ≤ len + 5000) then 1 else 0)) := by
  have hE0 : ∀ j, EnvWF { E with junk := j } := fun j => ⟨hE.perm, hE.lowmc⟩
  have hI0 : ∀ j, p ∈ picnic3Params → InvWF { E with junk := j } := fun j h => ⟨(hI h).len, (hI h).inv⟩
  obtain ⟨P', hP', hPn⟩ := getParamSet_of hn
  obtain rfl : P = P' := Option.some.inj (hP.symm.trans hP')
  have hWF := paramsWF_of hP
  have hb : bytesFor n ≤ 32 := by have := hWF.nMax; rw [hPn] at this; unfold bytesFor; omega
  obtain ⟨pk, hrp, hpa, hpp, hpc, hpt⟩ := read_pk_enc J.pk hJ (tail := (zeros PICNIC_MAX_PUBLICKEY_SIZE).drop v.pk.length) hn h1
  obtain ⟨sk, hrs, hrs', hsa, hsp, hskpp, hsd, hsc, hst⟩ := read_sk_enc J.sk J.sk (tail := (zeros PICNIC_MAX_PRIVATEKEY_SIZE).drop v.sk.length) (tail' := []) hn h2
  rw [List.append_nil] at hrs'
  refine ⟨sk, hrs', ?_⟩
  have bits : ∀ {a c : Buf}, a.length = 32 → a.take (bytesFor n) = c → ∀ i < 8 * bytesFor n, bitsOf c i = bitsOf a i := by
    intro a c _ h i hi
    rw [← h, bitsOf_take hi]
  have hn8 : ∀ i < P.stateSizeBits, i < 8 * bytesFor n := fun i hi => by rw [hPn] at hi; unfold bytesFor; omega
  have hR1 : Relation P (E.lowmc P) sk.data pk.plaintext pk.ciphertext :=
    (relation_congr hWF (fun i hi => bits hsa.data hsd i (hn8 i hi)) (fun i hi => bits hpa.pt hpt i (hn8 i hi))
      (fun i hi => bits hpa.ct hpc i (by rwa [hPn] at hi))).1 hR
  have hR2 : Relation P (E.lowmc P) sk.data sk.pk.plaintext sk.pk.ciphertext :=
    (relation_congr hWF (fun i hi => bits hsa.data hsd i (hn8 i hi)) (fun i hi => bits hsa.pk.pt hst i (hn8 i hi))
      (fun i hi => bits hsa.pk.ct hsc i (by rwa [hPn] at hi))).1 hR
  have hpad : ZeroPad n sk.data := by
    obtain ⟨n', rest, hn', -, -, -, -, hz, -⟩ := h2
    rw [hn] at hn'
    obtain rfl := Option.some.inj hn'
    intro i a1 a2
    rw [← hz i a1 a2, ← hsd, msbBit, msbBit, List.getD_eq_getElem?_getD, List.getD_eq_getElem?_getD, List.getElem?_take, if_pos (by omega)]
  have hval : picnicValidateKeypair { E with junk := J.call 0 } (some sk) (some pk) = Outcome.ok 0 := by
    obtain ⟨r, hr, -, hiff⟩ := C08_validate _ (hE0 (J.call 0)) sk pk hsa hpa
    rw [hr, hiff.2 ⟨by rw [hpp, hsp], P, hpp ▸ hP, hR1⟩]
  have hmod : (v.sig.length + 5000) % 2 ^ 64 = v.sig.length + 5000 := Nat.mod_eq_of_lt (by omega)
  have hbl : v.sig.length + 5000 ≤ ((List.range (v.sig.length + 5000)).map J.sig).length := by simp
  unfold judge runPicnicTest cycleSign
  dsimp only
  rw [hrs, ok_bind]
  dsimp only
  rw [if_neg (by decide), hrp, ok_bind]
  dsimp only
  rw [if_neg (by decide), hval, ok_bind, if_neg (by decide), hmod]
  rcases sign_sizes _ (hE0 (J.call 1)) sk (fun h => hI0 _ (hsp ▸ h)) hsa n (hsp ▸ hn) P (hsp ▸ hP) hR2 v.msg v.msg.length le_rfl hm with hd | ⟨s, hs, hsign⟩
  · refine Or.inl ⟨hd _ _ (by simp), ?_⟩
    rw [hd _ _ hbl]
    rfl
  refine Or.inr ⟨s ++ ((List.range (picnicSignatureSize p)).map J.sig).drop s.length, s.length, ?_, by simp, ?_⟩
  · rw [hsign _ _ (by simp), if_neg]
    rw [needed, hsp]
    rw [hsp] at hs
    split_ifs <;> omega
  rw [List.take_left, hsign _ _ hbl, ok_bind]
  rcases Nat.lt_or_ge (v.sig.length + 5000) (needed sk.params s.length) with hlt | hge
  · rw [if_pos hlt]
    dsimp only
    rw [if_pos (by decide), if_neg]
    · rfl
    rintro ⟨e, hz⟩
    rw [needed, hsp] at hlt
    rw [e] at hlt
    split_ifs at hlt with hmem
    · have := hz hmem
      omega
    · omega
  rw [if_neg (Nat.not_lt.2 hge)]
  dsimp only
  rw [if_neg (by decide)]
  by_cases hlen : s.length = v.sig.length
  swap
  · rw [if_pos hlen, if_neg fun h => hlen (by rw [h.1])]
    rfl
  rw [if_neg (not_not.2 hlen), memeq_ok (by omega) (by simp), ok_bind, List.take_left, hlen, List.take_length]
  by_cases heq : v.sig = s
  swap
  · rw [if_pos (by simpa using heq), if_neg fun h => heq h.1]
    rfl
  rw [if_neg (by simpa using heq)]
  have hz : p ∈ zkbParams → picnicSignatureSize p ≤ v.sig.length + 5000 := fun h => by
    rw [needed, hsp, if_pos h] at hge
    exact hge
  have hs0 : picnicSign { E with junk := J.call 1 } (some sk) v.msg v.msg.length ((List.range (v.sig.length + 5000)).map J.sig) (v.sig.length + 5000) =
      Outcome.ok (0, s ++ ((List.range (v.sig.length + 5000)).map J.sig).drop s.length, s.length) := by
    rw [hsign _ _ hbl, if_neg (by omega)]
  have hver : picnicVerify { E with junk := J.call 2 } (some pk) v.msg v.msg.length v.sig v.sig.length = Outcome.ok 0 := by
    rw [heq]
    rcases blockBits_cases hn with hp | hp
    · exact C01_sign_verify _ (hE0 (J.call 1)) (J.call 2) E.fuel le_rfl sk hsa (hsp ▸ hp) n (hsp ▸ hn) hpad v.msg v.msg.length le_rfl hm _ _ hbl _ _ hs0 pk hpa
        (by rw [hpp, hsp]) (by rw [hpc, hsc]) (by rw [hpt, hst]) s (by rw [List.take_left, List.take_length]) le_rfl
    · exact C02_sign_verify _ (hE0 (J.call 1)) (hI0 _ hp) (J.call 2) E.fuel le_rfl sk hsa (hsp ▸ hp) n (hsp ▸ hn) v.msg v.msg.length le_rfl hm _ _ hbl _ _ hs0
        pk hpa (by rw [hpp, hsp]) (by rw [hpc, hsc]) (by rw [hpt, hst]) s (by rw [List.take_left, List.take_length]) le_rfl
  rw [hver, ok_bind, if_neg (by decide), if_pos ⟨heq, hz⟩]
  rfl

/-- **C61**, accepted vectors: if the test of a vector gives 1, its keys are encodings for the same parameter set, the secret key belongs to the public
key, the signature is the one that `picnic_sign` produces with the secret key, and `picnic_verify` accepts it for the public key. -/
theorem C61_accepted (E : Env) (hE : EnvWF E) (J : CycleJunk) (hJ : J.pk.Arrays) (v : Vec) (hl : v.sig.length < 2 ^ 60) (h : judge E J v = Outcome.ok 1) :
    ∃ (p : ℕ) (k ct pt ct' pt' : Buf) (P : Params) (sk : PrivateKey) (pk : PublicKey) (sig : Buf), PkEncoding v.pk p ct pt ∧ SkEncoding v.sk p k ct' pt' ∧
      getParamSet p = some P ∧ Relation P (E.lowmc P) k pt ct ∧
      picnicReadPrivateKey (some J.sk) (some v.sk) v.sk.length = Outcome.ok (0, some sk) ∧
      picnicSign { E with junk := J.call 1 } (some sk) v.msg v.msg.length ((List.range (v.sig.length + 5000)).map J.sig) (v.sig.length + 5000) =
        Outcome.ok (0, sig, v.sig.length) ∧ sig.take v.sig.length = v.sig ∧
      picnicReadPublicKey (some J.pk) (some (v.pk ++ (zeros PICNIC_MAX_PUBLICKEY_SIZE).drop v.pk.length)) v.pk.length = Outcome.ok (0, some pk) ∧
      picnicVerify { E with junk := J.call 2 } (some pk) v.msg v.msg.length v.sig v.sig.length = Outcome.ok 0 := by
  have h01 : ¬ (Outcome.ok (0 : Int) = Outcome.ok 1) := by simp
  have hmod : (v.sig.length + 5000) % 2 ^ 64 = v.sig.length + 5000 := Nat.mod_eq_of_lt (by omega)
  unfold judge runPicnicTest at h
  dsimp only at h
  rw [hmod] at h
  obtain ⟨r, sk', e1, -, hiff1, -⟩ := C12_read_private_key J.sk (v.sk ++ (zeros PICNIC_MAX_PRIVATEKEY_SIZE).drop v.sk.length) v.sk.length (by simp)
  rw [List.take_left] at hiff1
  rw [e1, ok_bind] at h
  dsimp only at h
  by_cases hr : r = 0
  swap
  · rw [if_pos hr] at h
    exact absurd h h01
  subst hr
  rw [if_neg (by decide)] at h
  obtain ⟨p, k, ct', pt', hse⟩ := hiff1.1 rfl
  obtain ⟨r, pk', e2, -, hiff2, -⟩ := C12_read_public_key J.pk hJ (v.pk ++ (zeros PICNIC_MAX_PUBLICKEY_SIZE).drop v.pk.length) v.pk.length (by simp)
  rw [List.take_left] at hiff2
  rw [e2, ok_bind] at h
  dsimp only at h
  by_cases hr : r = 0
  swap
  · rw [if_pos hr] at h
    exact absurd h h01
  subst hr
  rw [if_neg (by decide)] at h
  obtain ⟨p', ct, pt, hpe⟩ := hiff2.1 rfl
  obtain ⟨n, hn⟩ : ∃ n, blockBits p = some n := ⟨_, hse.choose_spec.choose_spec.1⟩
  obtain ⟨n', hn'⟩ : ∃ n, blockBits p' = some n := ⟨_, hpe.choose_spec.choose_spec.1⟩
  obtain ⟨sk, hrs, hrs', hsa, hsp, hskpp, hsd, hsc, hst⟩ := read_sk_enc J.sk J.sk (tail := (zeros PICNIC_MAX_PRIVATEKEY_SIZE).drop v.sk.length) (tail' := []) hn hse
  rw [e1] at hrs
  obtain rfl : sk' = sk := Option.some.inj (Prod.mk.inj (Outcome.ok.inj hrs)).2
  obtain ⟨pk, hrp, hpa, hpp, hpc, hpt⟩ := read_pk_enc J.pk hJ (tail := (zeros PICNIC_MAX_PUBLICKEY_SIZE).drop v.pk.length) hn' hpe
  rw [e2] at hrp
  obtain rfl : pk' = pk := Option.some.inj (Prod.mk.inj (Outcome.ok.inj hrp)).2
  rw [List.append_nil] at hrs'
  obtain ⟨r, e3, -, hiff3⟩ := C08_validate _ (⟨hE.perm, hE.lowmc⟩ : EnvWF { E with junk := J.call 0 }) sk' pk' hsa hpa
  rw [e3, ok_bind] at h
  by_cases hr : r = 0
  swap
  · rw [if_pos hr] at h
    exact absurd h h01
  obtain ⟨hpq, P, hP, hR⟩ := hiff3.1 hr
  rw [hsp, hpp] at hpq
  subst hpq
  rw [hn] at hn'
  obtain rfl := Option.some.inj hn'
  rw [if_neg (by simp [hr])] at h
  obtain ⟨⟨r, sig, len⟩, e4, h⟩ := bind_ok_inv h
  dsimp only at h
  by_cases hr4 : r = 0
  swap
  · rw [if_pos hr4] at h
    exact absurd h h01
  subst hr4
  rw [if_neg (by decide)] at h
  by_cases hlen : len = v.sig.length
  swap
  · rw [if_pos hlen] at h
    exact absurd h h01
  subst hlen
  rw [if_neg (by simp)] at h
  obtain ⟨b, e5, h⟩ := bind_ok_inv h
  have hb : b = true := by
    cases b with
    | true => rfl
    | false => exact absurd h h01
  subst hb
  rw [if_neg (by decide)] at h
  obtain ⟨r, e6, h⟩ := bind_ok_inv h
  by_cases hr6 : r = 0
  swap
  · rw [if_pos hr6] at h
    exact absurd h h01
  subst hr6
  have heq : sig.take v.sig.length = v.sig := by
    unfold memeq at e5
    obtain ⟨x, e7, e5⟩ := bind_ok_inv e5
    obtain ⟨y, e8, e5⟩ := bind_ok_inv e5
    rw [rdN_ok (by simp)] at e7
    have hle : v.sig.length ≤ sig.length := by
      by_contra hc
      unfold rdN at e8
      rw [if_neg (by omega)] at e8
      cases e8
    rw [rdN_ok (by omega)] at e8
    have := Outcome.ok.inj e5
    rw [beq_iff_eq, ← Outcome.ok.inj e7, ← Outcome.ok.inj e8] at this
    simpa using this.symm
  obtain ⟨P', hP', hPn⟩ := getParamSet_of hn
  obtain rfl : P = P' := Option.some.inj ((hpp ▸ hP).symm.trans hP')
  have bits : ∀ {a c : Buf}, a.take (bytesFor n) = c → ∀ i < 8 * bytesFor n, bitsOf c i = bitsOf a i := fun h i hi => by rw [← h, bitsOf_take hi]
  have hn8 : ∀ i < P.stateSizeBits, i < 8 * bytesFor n := fun i hi => by rw [hPn] at hi; unfold bytesFor; omega
  exact ⟨p, k, ct, pt, ct', pt', P, sk', pk', sig, hpe, hse, hP', (relation_congr (paramsWF_of hP') (fun i hi => bits hsd i (hn8 i hi))
    (fun i hi => bits hpt i (hn8 i hi)) (fun i hi => bits hpc i (by rwa [hPn] at hi))).2 hR, hrs', e4, heq, e2, e6⟩

/-- The encodings of a generated key pair. -/
theorem gen_encodings {L : Params → LowMCConsts} {p n : ℕ} {r0 : Buf} {pk : PublicKey} {sk : PrivateKey} (hn : blockBits p = some n) (hg : GenOK L p n r0 pk sk) :
    ∃ (bpk bsk k ct pt : Buf) (P : Params), bpk.length = 1 + 2 * bytesFor n ∧ bsk.length = 1 + 3 * bytesFor n ∧ PkEncoding bpk p ct pt ∧ SkEncoding bsk p k ct pt ∧
      getParamSet p = some P ∧ Relation P (L P) k pt ct := by
  obtain ⟨P, hP, hR⟩ := hg.rel
  obtain ⟨P', hP', hPn⟩ := getParamSet_of hn
  obtain rfl : P = P' := Option.some.inj (hP.symm.trans hP')
  have hWF := paramsWF_of hP
  have hb : bytesFor n ≤ 32 := by have := hWF.nMax; rw [hPn] at this; unfold bytesFor; omega
  have a1 := hg.pa.ct
  have a2 := hg.pa.pt
  have a3 := hg.sa.data
  have pad : ∀ {b : Buf}, ZeroPad n b → ZeroPad n (b.take (bytesFor n)) := fun {b} h i h1 h2 => by
    rw [← h i h1 h2, msbBit, msbBit, List.getD_eq_getElem?_getD, List.getD_eq_getElem?_getD, List.getElem?_take, if_pos (by omega)]
  have l1 : (pk.ciphertext.take (bytesFor n)).length = bytesFor n := by rw [List.length_take]; omega
  have l2 : (pk.plaintext.take (bytesFor n)).length = bytesFor n := by rw [List.length_take]; omega
  have l3 : (sk.data.take (bytesFor n)).length = bytesFor n := by rw [List.length_take]; omega
  refine ⟨BitVec.ofNat 8 p :: (pk.ciphertext.take (bytesFor n) ++ pk.plaintext.take (bytesFor n) ++ []),
    BitVec.ofNat 8 p :: (sk.data.take (bytesFor n) ++ pk.ciphertext.take (bytesFor n) ++ pk.plaintext.take (bytesFor n) ++ []), sk.data.take (bytesFor n),
    pk.ciphertext.take (bytesFor n), pk.plaintext.take (bytesFor n), P, ?_, ?_, ⟨n, [], hn, rfl, l1, l2, pad hg.z1, pad hg.z2⟩,
    ⟨n, [], hn, rfl, l3, l1, l2, pad hg.z0, pad hg.z1, pad hg.z2⟩, hP, ?_⟩
  · simp only [List.length_cons, List.length_append, l1, l2, List.length_nil]; omega
  · simp only [List.length_cons, List.length_append, l1, l2, l3, List.length_nil]; omega
  · have hn8 : ∀ i < P.stateSizeBits, i < 8 * bytesFor n := fun i hi => by rw [hPn] at hi; unfold bytesFor; omega
    exact (relation_congr hWF (fun i hi => bitsOf_take (hn8 i hi)) (fun i hi => bitsOf_take (hn8 i hi)) (fun i hi => bitsOf_take (by rwa [hPn] at hi))).2 hR

/-- The hypotheses of `C61_vector` are met by the keys of a generated pair, for every parameter set. -/
example (E : Env) (hE : EnvWF E) (rng : Rng) (hrng : RngLen rng) (pk0 : PublicKey) (sk0 : PrivateKey) (p n : ℕ) (hn : blockBits p = some n)
    (r0 r1 : Buf) (h0 : rng 0 (bytesFor n) = some r0) (h1 : rng 1 (bytesFor n) = some r1) (msg sig : Buf) :
    ∃ (v : Vec) (k ct pt : Buf) (P : Params), v.msg = msg ∧ v.sig = sig ∧ PkEncoding v.pk p ct pt ∧ SkEncoding v.sk p k ct pt ∧
      getParamSet p = some P ∧ Relation P (E.lowmc P) k pt ct := by
  obtain ⟨pk, sk, e, hg⟩ := genOK E hE rng hrng p n hn pk0 sk0 r0 r1 h0 h1
  obtain ⟨bpk, bsk, k, ct, pt, P, -, -, e1, e2, e3, e4⟩ := gen_encodings hn hg
  exact ⟨⟨msg, bpk, bsk, [], sig⟩, k, ct, pt, P, rfl, rfl, e1, e2, e3, e4⟩

/-- **C61**, violated: with a ZKB++ parameter set that uses the Fiat-Shamir transform, a vector that contains exactly the signature of the library is
refused if more than 5000 bytes are missing compared to `picnic_signature_size`, that is if the challenge contains too many zeros.  For level 5 more
than 156 zeros of 438 are enough, where 146 are to be expected. -/
theorem C61_slack_violated (E : Env) (hE : EnvWF E) (J : CycleJunk) (hJ : J.pk.Arrays) (p n : ℕ) (hp : p ∈ zkbParams) (hu : p ∉ urParams)
    (hn : blockBits p = some n) (v : Vec) (hm : v.msg.length + 200 ≤ 2 ^ 32) (k ct pt : Buf) (h1 : PkEncoding v.pk p ct pt)
    (h2 : SkEncoding v.sk p k ct pt) (P : Params) (hP : getParamSet p = some P) (hR : Relation P (E.lowmc P) k pt ct)
    (sk : PrivateKey) (hsk : picnicReadPrivateKey (some J.sk) (some v.sk) v.sk.length = Outcome.ok (0, some sk)) (sig : Buf) (len : ℕ)
    (hs : cycleSign E J p sk v.msg = Outcome.ok (0, sig, len)) (hv : v.sig = sig.take len) :
    judge E J v = Outcome.ok (if bytesFor n * ((List.range P.numMPCRounds).countP fun i => value sig i = 0) ≤ 5000 then 1 else 0) := by
  have h3p : p ∉ picnic3Params := fun h => by
    simp only [zkbParams, picnic3Params, List.mem_cons, List.not_mem_nil, or_false] at h hp
    omega
  obtain ⟨P', hP', hPn⟩ := getParamSet_of hn
  obtain rfl : P = P' := Option.some.inj (hP.symm.trans hP')
  obtain ⟨sk1, -, e1, hsa, hsp, -⟩ := read_sk_enc J.sk J.sk (tail := []) (tail' := []) hn h2
  rw [List.append_nil, hsk] at e1
  obtain rfl : sk = sk1 := Option.some.inj (Prod.mk.inj (Outcome.ok.inj e1)).2
  have h6 := (C06_length _ (⟨hE.perm, hE.lowmc⟩ : EnvWF { E with junk := J.call 1 }) sk hsa (hsp ▸ hp) P (hsp ▸ hP) v.msg v.msg.length le_rfl hm _ _ (by simp) sig len hs).2
    (hsp ▸ hu)
  rw [hsp, hPn] at h6
  have hsz : picnicSignatureSize p ≤ 209522 := by
    have : 1 ≤ p ∧ p ≤ 12 := by
      simp only [zkbParams, List.mem_cons, List.not_mem_nil, or_false] at hp
      omega
    exact ((C04_max_sizes).1 p this.1 this.2).2
  obtain ⟨sk2, e2, hc⟩ := C61_vector E hE J hJ p n (fun h => absurd h h3p) hn v hm (by rw [hv, List.length_take]; omega) k ct pt h1 h2 P hP hR
  rw [hsk] at e2
  obtain rfl : sk = sk2 := Option.some.inj (Prod.mk.inj (Outcome.ok.inj e2)).2
  rcases hc with ⟨h, -⟩ | ⟨sig', len', h, hle, hj⟩
  · rw [hs] at h; cases h
  rw [hs] at h
  obtain ⟨-, rfl, rfl⟩ : (0 : Int) = 0 ∧ sig = sig' ∧ len = len' := by simpa using h
  rw [hj]
  congr 1
  refine if_congr ⟨fun h => ?_, fun h => ⟨hv, fun _ => ?_⟩⟩ rfl rfl
  · have := h.2 hp
    omega
  · omega

/-- Vectors with correct signatures, all challenges zero: accepted for level 1, refused for level 5. -/
theorem C61_zero_vectors (p n : ℕ) (hp : p ∈ zkbParams) (hu : p ∉ urParams) (hn : blockBits p = some n) (msg : Buf) (hm : msg.length + 200 ≤ 2 ^ 32) :
    ∃ (J : CycleJunk) (v : Vec) (sk : PrivateKey) (sig : Buf) (len : ℕ) (k ct pt : Buf) (P : Params), J.pk.Arrays ∧ v.msg = msg ∧
    v.pk.length = 1 + 2 * bytesFor n ∧ v.sk.length = 1 + 3 * bytesFor n ∧ v.header.length = 4 + v.msg.length ∧ v.sig.length < 2 ^ 60 ∧
    PkEncoding v.pk p ct pt ∧ SkEncoding v.sk p k ct pt ∧ getParamSet p = some P ∧ Relation P (zeroEnv.lowmc P) k pt ct ∧
    picnicReadPrivateKey (some J.sk) (some v.sk) v.sk.length = Outcome.ok (0, some sk) ∧
    cycleSign zeroEnv J p sk v.msg = Outcome.ok (0, sig, len) ∧ v.sig = sig.take len ∧
    judge zeroEnv J v = Outcome.ok (if bytesFor n * P.numMPCRounds ≤ 5000 then 1 else 0) := by
  have hrng : RngLen (fun _ n => some (List.replicate n 0xff)) := fun k n r h => by injection h with h; subst h; simp
  obtain ⟨pk, sk0, -, hg⟩ := genOK zeroEnv zeroEnv_wf _ hrng p n hn PublicKey.zero PrivateKey.zero _ _ rfl rfl
  obtain ⟨bpk, bsk, k, ct, pt, P, lpk, lsk, e1, e2, hP, hR⟩ := gen_encodings hn hg
  let J : CycleJunk := { pk := PublicKey.zero, sk := PrivateKey.zero, sig := fun _ => 0, pkBuf := fun _ => 0, skBuf := fun _ => 0, call := fun _ => zeroEnv.junk }
  have hJ : J.pk.Arrays := ⟨by simp [J, PublicKey.zero, PICNIC_MAX_LOWMC_BLOCK_SIZE], by simp [J, PublicKey.zero, PICNIC_MAX_LOWMC_BLOCK_SIZE]⟩
  obtain ⟨P', hP', h3⟩ := getParamSet_zkb hp
  obtain rfl : P = P' := Option.some.inj (hP.symm.trans hP')
  obtain ⟨P', hP', hPn⟩ := getParamSet_of hn
  obtain rfl : P = P' := Option.some.inj (hP.symm.trans hP')
  have h3p : p ∉ picnic3Params := fun h => by
    simp only [zkbParams, picnic3Params, List.mem_cons, List.not_mem_nil, or_false] at h hp
    omega
  obtain ⟨sk, er, hc⟩ := C61_vector zeroEnv zeroEnv_wf J hJ p n (fun h => absurd h h3p) hn ⟨msg, bpk, bsk, [], []⟩ hm (by simp) k ct pt e1 e2 P hP hR
  obtain ⟨sk1, -, e3, hsa, hsp, -, hsd, hsc, hst⟩ := read_sk_enc J.sk J.sk (tail := []) (tail' := []) hn e2
  rw [List.append_nil] at e3
  change picnicReadPrivateKey (some J.sk) (some bsk) bsk.length = _ at er
  obtain rfl : sk = sk1 := Option.some.inj (Prod.mk.inj (Outcome.ok.inj (er.symm.trans e3))).2
  have hex : ∃ sig len, cycleSign zeroEnv J p sk msg = Outcome.ok (0, sig, len) := by
    rcases hc with ⟨h, -⟩ | ⟨sig, len, h, -⟩
    · exfalso
      have hR' : Relation P (zeroEnv.lowmc P) sk.data sk.pk.plaintext sk.pk.ciphertext := by
        have bits : ∀ {a c : Buf}, a.take (bytesFor n) = c → ∀ i < 8 * bytesFor n, bitsOf c i = bitsOf a i := fun h i hi => by rw [← h, bitsOf_take hi]
        have hn8 : ∀ i < P.stateSizeBits, i < 8 * bytesFor n := fun i hi => by rw [hPn] at hi; unfold bytesFor; omega
        exact (relation_congr (paramsWF_of hP) (fun i hi => bits hsd i (hn8 i hi)) (fun i hi => bits hst i (hn8 i hi))
          (fun i hi => bits hsc i (by rwa [hPn] at hi))).1 hR
      refine (C03_zkb zeroEnv zeroEnv_wf sk hsa (hsp ▸ hp) P (hsp ▸ hP) hR' msg msg.length le_rfl hm
        ((List.range (picnicSignatureSize p)).map J.sig) (picnicSignatureSize p) (by simp) (by rw [hsp])).2 (fun d _ => ?_) h
      refine Nat.le_trans ?_ (zeroEnv_stream hP 999 d)
      have hdig := (zkbWF_of hP h3).digPos
      have hT := (zkbWF_of hP h3).T
      have : 4 * 1 * 999 ≤ 4 * P.digestSizeBytes * 999 := by
        apply Nat.mul_le_mul_right
        omega
      omega
    · exact ⟨sig, len, h⟩
  obtain ⟨sig, len, hs⟩ := hex
  have hsl : (sig.take len).length < 2 ^ 60 := by
    rw [List.length_take]
    have h6 := (C06_length zeroEnv zeroEnv_wf sk hsa (hsp ▸ hp) P (hsp ▸ hP) msg msg.length le_rfl hm _ _ (by simp) sig len hs).2 (hsp ▸ hu)
    have : 1 ≤ p ∧ p ≤ 12 := by
      simp only [zkbParams, List.mem_cons, List.not_mem_nil, or_false] at hp
      omega
    have := ((C04_max_sizes).1 p this.1 this.2).2
    rw [hsp] at h6
    omega
  have hj := C61_slack_violated zeroEnv zeroEnv_wf J hJ p n hp hu hn ⟨msg, bpk, bsk, zeros (4 + msg.length), sig.take len⟩ hm k ct pt e1 e2 P hP hR sk er
    sig len hs rfl
  refine ⟨J, ⟨msg, bpk, bsk, zeros (4 + msg.length), sig.take len⟩, sk, sig, len, k, ct, pt, P, hJ, rfl, lpk, lsk, by simp, hsl, e1, e2, hP, hR, er, hs, rfl, ?_⟩
  rw [hj]
  obtain ⟨d, front, l, hd, hl, hll, hval, -⟩ := C17_zkb_sign zeroEnv zeroEnv_wf sk hsa (hsp ▸ hp) P (hsp ▸ hP) msg msg.length le_rfl hm _ _ (by simp) sig len hs
  rw [zeroEnv_H (rateOf_two hP)] at hd
  subst hd
  have hz : ∀ i < P.numMPCRounds, value sig i = 0 := by
    intro i hi
    rw [(hval i hi).1, List.getD_eq_getElem _ _ (by omega)]
    obtain ⟨k, -, rfl⟩ := hl
    exact stream_zero hP k _ (List.mem_of_mem_take (List.getElem_mem _))
  rw [List.countP_eq_length.2 (fun i hi => by simpa using hz i (List.mem_range.1 hi)), List.length_range]

/-! ### Files -/

/-- The sizes of the keys that the program uses are the right ones. -/
theorem C61_sizes (p n : ℕ) (hn : blockBits p = some n) : keySizes p = (1 + 2 * bytesFor n, 1 + 3 * bytesFor n) := by
  obtain ⟨P, hP, -⟩ := getParamSet_of hn
  obtain ⟨h1, h2⟩ := getParamSet_bounds hP
  interval_cases p <;> (injection hn with h; subst h; decide)

/-- **C61**, the files: for a file in the format, with vectors whose parts have the right sizes and whose tests give `res`, the result is 1 exactly if
there is a vector and the test of every vector gives 1. -/
theorem C61_file (E : Env) (J : ℕ → CycleJunk) (p n : ℕ) (hn : blockBits p = some n) (vs : List Vec) (lines : List Buf) (h : File vs lines)
    (hs : ∀ v ∈ vs, Sized (1 + 2 * bytesFor n) (1 + 3 * bytesFor n) v) (res : ℕ → Int)
    (hr : ∀ i (hi : i < vs.length), judge E (J i) vs[i] = Outcome.ok (res i) ∧ (res i = 0 ∨ res i = 1)) :
    runFile E J (keySizes p).1 (keySizes p).2 (some lines) = Outcome.ok (if vs ≠ [] ∧ ∀ i < vs.length, res i = 1 then 1 else 0) := by
  obtain ⟨m1, m2⟩ := C04_max_sizes.2.1 p n hn
  rw [C61_sizes p n hn, runFile]
  obtain ⟨t, ht, hall, e⟩ := run_file h hs m1 m2 [] (lines.length + 1) 0 0 res (by have := file_length h; omega)
    (fun i hi => by rw [Nat.zero_add]; exact hr i hi)
  rw [List.append_nil] at e
  rw [e]
  obtain ⟨f, hf⟩ : ∃ f, lines.length + 1 - vs.length = f + 1 := ⟨lines.length - vs.length, by have := file_length h; omega⟩
  rw [hf, runVectors]
  simp only [readTestVector, pure_eq_ok, ok_bind]
  rw [if_neg (by decide)]
  dsimp only
  congr 1
  refine if_congr ?_ rfl rfl
  rw [Nat.zero_add, Nat.zero_add, hall, ne_eq, List.length_eq_zero_iff]

/-- **C61**, violated: if a line follows the vectors that is not part of the format, this line and everything after it is ignored; the result is the
same as without it.  So a file that has been damaged after the first vector is accepted. -/
theorem C61_ignored_violated (E : Env) (J : ℕ → CycleJunk) (p n : ℕ) (hn : blockBits p = some n) (vs : List Vec) (lines : List Buf) (h : File vs lines)
    (hs : ∀ v ∈ vs, Sized (1 + 2 * bytesFor n) (1 + 3 * bytesFor n) v) (res : ℕ → Int)
    (hr : ∀ i (hi : i < vs.length), judge E (J i) vs[i] = Outcome.ok (res i) ∧ (res i = 0 ∨ res i = 1)) (bad : Buf) (hb : Unknown bad) (rest : List Buf) :
    runFile E J (keySizes p).1 (keySizes p).2 (some (lines ++ bad :: rest)) = runFile E J (keySizes p).1 (keySizes p).2 (some lines) := by
  rw [C61_file E J p n hn vs lines h hs res hr]
  obtain ⟨m1, m2⟩ := C04_max_sizes.2.1 p n hn
  rw [C61_sizes p n hn, runFile]
  have hfl := file_length h
  obtain ⟨t, ht, hall, e⟩ := run_file h hs m1 m2 (bad :: rest) ((lines ++ bad :: rest).length + 1) 0 0 res (by rw [List.length_append]; omega)
    (fun i hi => by rw [Nat.zero_add]; exact hr i hi)
  rw [e]
  obtain ⟨f, hf⟩ : ∃ f, (lines ++ bad :: rest).length + 1 - vs.length = f + 1 := ⟨(lines ++ bad :: rest).length - vs.length, by rw [List.length_append]; omega⟩
  rw [hf, runVectors, read_unknown hb, ok_bind]
  dsimp only
  rw [pure_eq_ok]
  congr 1
  refine if_congr ?_ rfl rfl
  rw [Nat.zero_add, Nat.zero_add, hall, ne_eq, List.length_eq_zero_iff]

/-- **C61**, violated: the length and the copy of the message before the signature are not looked at. -/
theorem C61_header_violated (E : Env) (J : ℕ → CycleJunk) (p n : ℕ) (hn : blockBits p = some n) (v : Vec) (h1 h2 : Buf) (hl : h1.length = h2.length)
    (lines lines' : List Buf) (h : File [{ v with header := h1 }] lines) (h' : File [{ v with header := h2 }] lines')
    (hs : Sized (1 + 2 * bytesFor n) (1 + 3 * bytesFor n) { v with header := h1 }) (r : Int) (hr : judge E (J 0) v = Outcome.ok r) (h01 : r = 0 ∨ r = 1) :
    runFile E J (keySizes p).1 (keySizes p).2 (some lines) = Outcome.ok r ∧ runFile E J (keySizes p).1 (keySizes p).2 (some lines') = Outcome.ok r := by
  have key : ∀ (h0 : Buf) (l : List Buf), File [{ v with header := h0 }] l → Sized (1 + 2 * bytesFor n) (1 + 3 * bytesFor n) { v with header := h0 } →
      runFile E J (keySizes p).1 (keySizes p).2 (some l) = Outcome.ok r := by
    intro h0 l hF hS
    rw [C61_file E J p n hn _ l hF (by simpa using hS) (fun _ => r) (fun i hi => by
      obtain rfl : i = 0 := by simpa using hi
      exact ⟨hr, h01⟩)]
    rcases h01 with rfl | rfl <;> simp
  refine ⟨key h1 lines h hs, key h2 lines' h' ?_⟩
  exact ⟨hs.msg, hs.msg32, hs.pk, hs.sk, by rw [← hs.header]; exact hl.symm, hs.sig⟩

/-- **C61**, violated: if `sm` is shorter than the length field and the message, the program computes a pointer outside the array. -/
theorem C61_short_violated (E : Env) (J : ℕ → CycleJunk) (p n : ℕ) (hn : blockBits p = some n) (v : Vec) (lines rest : List Buf) (h : Lines v lines)
    (h1 : 1 ≤ v.msg.length) (h2 : v.msg.length + 200 ≤ 2 ^ 32) (h3 : v.pk.length = 1 + 2 * bytesFor n) (h4 : v.sk.length = 1 + 3 * bytesFor n)
    (h5 : 1 ≤ (v.header ++ v.sig).length) (h6 : (v.header ++ v.sig).length < 4 + v.msg.length) :
    runFile E J (keySizes p).1 (keySizes p).2 (some (lines ++ rest)) = Outcome.ub UB.oobRead := by
  obtain ⟨m1, m2⟩ := C04_max_sizes.2.1 p n hn
  rw [C61_sizes p n hn, runFile, runVectors, ← h3, ← h4, read_lines h (by omega) (by omega) (by omega) (by omega) (by rw [h3]; exact m1) (by rw [h4]; exact m2),
    ok_bind]
  dsimp only
  refine bind_of_ub ?_
  unfold runVector
  simp only [vecOf, deref, pure_eq_ok, ok_bind]
  have hc : (v.header ++ v.sig).length < v.msg.length + 4 := by omega
  simp only [hc, if_true]

/-- The result of the program: 0 exactly if the result for all twelve files is 1. -/
theorem C61_main (E : Env) (J : ℕ → ℕ → CycleJunk) (files : ℕ → Option (List Buf)) (res : ℕ → Int)
    (hr : ∀ p, 1 ≤ p → p ≤ 12 → runFile E (J p) (keySizes p).1 (keySizes p).2 (files p) = Outcome.ok (res p)) :
    Kats.main E J files = Outcome.ok (if ∀ p, 1 ≤ p → p ≤ 12 → res p ≠ 0 then 0 else -1) := by
  unfold Kats.main
  obtain ⟨r, e, h⟩ := loop_inv (fun s (r : Int) => (r = 0 ∨ r = -1) ∧ (r = 0 ↔ ∀ p, 1 ≤ p → p ≤ s → res p ≠ 0)) (n := 12) (s := (0 : Int))
    (f := fun s ret => do
      let p := s + 1
      let t ← runFile E (J p) (keySizes p).1 (keySizes p).2 (files p)
      pure (if t = 0 then -1 else ret)) ⟨Or.inl rfl, by simp; omega⟩ (fun s hs r hr' => by
      refine ⟨if res (s + 1) = 0 then -1 else r, ?_, ?_, ?_⟩
      · dsimp only
        rw [hr (s + 1) (by omega) (by omega), ok_bind]
        rfl
      · split_ifs
        · exact Or.inr rfl
        · exact hr'.1
      · by_cases h0 : res (s + 1) = 0
        · rw [if_pos h0]
          refine ⟨fun h => absurd h (by decide), fun h => absurd h0 (h _ (by omega) le_rfl)⟩
        · rw [if_neg h0, hr'.2]
          refine ⟨fun h p h1 h2 => ?_, fun h p h1 h2 => h p h1 (by omega)⟩
          by_cases hp : p = s + 1
          · rw [hp]; exact h0
          · exact h p h1 (by omega))
  rw [e]
  congr 1
  split_ifs with hc
  · exact h.2.2 hc
  · exact h.1.resolve_left fun h0 => hc (h.2.1 h0)

/-! ### Examples -/

theorem hex_exists (bs : Buf) : ∃ cs, IsHex cs bs := by
  induction bs with
  | nil => exact ⟨[], .nil⟩
  | cons b bs ih =>
    obtain ⟨cs, h⟩ := ih
    have dig : ∀ a < 16, ∃ c, HexDigit c a := fun a ha => by
      refine ⟨(text "0123456789abcdef").getD a 0, Or.inl ?_⟩
      interval_cases a <;> decide
    obtain ⟨c1, h1⟩ := dig (b.toNat / 16) (by have := b.isLt; omega)
    obtain ⟨c2, h2⟩ := dig (b.toNat % 16) (by omega)
    refine ⟨c1 :: c2 :: cs, ?_⟩
    have hb : b = BitVec.ofNat 8 (16 * (b.toNat / 16) + b.toNat % 16) := by rw [Nat.div_add_mod, BitVec.ofNat_toNat, BitVec.setWidth_eq]
    rw [hb]
    exact IsHex.cons h1 h2 h

/-- Every list of vectors can be written as a file. -/
theorem file_exists (vs : List Vec) : ∃ lines, File vs lines := by
  induction vs with
  | nil => exact ⟨[], .nil (by simp)⟩
  | cons v vs ih =>
    obtain ⟨rest, h⟩ := ih
    obtain ⟨c1, h1⟩ := hex_exists v.msg
    obtain ⟨c2, h2⟩ := hex_exists v.pk
    obtain ⟨c3, h3⟩ := hex_exists v.sk
    obtain ⟨c4, h4⟩ := hex_exists (v.header ++ v.sig)
    exact ⟨_, .cons ⟨[], [], [], c1, c2, c3, c4, by simp, h1, h2, h3, h4, rfl⟩ h⟩

/-- A file with a single vector whose signature is correct is refused, for level 5. -/
example : ∃ (J : ℕ → CycleJunk) (v : Vec) (lines : List Buf), File [v] lines ∧
    runFile zeroEnv J (keySizes 5).1 (keySizes 5).2 (some lines) = Outcome.ok 0 := by
  obtain ⟨J, v, sk, sig, len, k, ct, pt, P, -, h0, h1, h2, h3, h4, -, -, hP, -, -, -, -, hj⟩ := C61_zero_vectors 5 256 (by decide) (by decide) rfl [1] (by decide)
  obtain ⟨lines, hF⟩ := file_exists [v]
  refine ⟨fun _ => J, v, lines, hF, ?_⟩
  have hT : P.numMPCRounds = 438 := by injection hP with h; subst h; rfl
  rw [hT, if_neg (by decide)] at hj
  rw [C61_file zeroEnv (fun _ => J) 5 256 rfl [v] lines hF (fun w hw => by
    obtain rfl := List.mem_singleton.1 hw
    exact ⟨by rw [h0]; decide, by rw [h0]; decide, h1, h2, h3, h4⟩) (fun _ => 0) fun i hi => by
      obtain rfl : i = 0 := by simpa using hi
      exact ⟨hj, Or.inl rfl⟩]
  simp

/-- The corresponding file for level 1 is accepted, also if arbitrary lines follow after one that is damaged. -/
example (rest : List Buf) : ∃ (J : ℕ → CycleJunk) (v : Vec) (lines : List Buf), File [v] lines ∧
    runFile zeroEnv J (keySizes 1).1 (keySizes 1).2 (some lines) = Outcome.ok 1 ∧
    runFile zeroEnv J (keySizes 1).1 (keySizes 1).2 (some (lines ++ text "Count = 1\n" :: rest)) = Outcome.ok 1 := by
  obtain ⟨J, v, sk, sig, len, k, ct, pt, P, -, h0, h1, h2, h3, h4, -, -, hP, -, -, -, -, hj⟩ := C61_zero_vectors 1 128 (by decide) (by decide) rfl [1] (by decide)
  obtain ⟨lines, hF⟩ := file_exists [v]
  have hT : P.numMPCRounds = 219 := by injection hP with h; subst h; rfl
  rw [hT, if_pos (by decide)] at hj
  have hS : ∀ w ∈ [v], Sized (1 + 2 * bytesFor 128) (1 + 3 * bytesFor 128) w := fun w hw => by
    obtain rfl := List.mem_singleton.1 hw
    exact ⟨by rw [h0]; decide, by rw [h0]; decide, h1, h2, h3, h4⟩
  have hr : ∀ i (hi : i < [v].length), judge zeroEnv ((fun _ => J) i) [v][i] = Outcome.ok ((fun _ => (1 : Int)) i) ∧ ((fun _ => (1 : Int)) i = 0 ∨ (fun _ => (1 : Int)) i = 1) :=
    fun i hi => by
      obtain rfl : i = 0 := by simpa using hi
      exact ⟨hj, Or.inr rfl⟩
  have hok : runFile zeroEnv (fun _ => J) (keySizes 1).1 (keySizes 1).2 (some lines) = Outcome.ok 1 := by
    rw [C61_file zeroEnv (fun _ => J) 1 128 rfl [v] lines hF hS (fun _ => 1) hr]
    simp
  refine ⟨fun _ => J, v, lines, hF, hok, ?_⟩
  rw [C61_ignored_violated zeroEnv (fun _ => J) 1 128 rfl [v] lines hF hS (fun _ => 1) hr (text "Count = 1\n") ⟨by unfold Skip; decide, by decide⟩ rest]
  exact hok

end Picnic
