import Verif.Proofs.LeakPub
import Verif.Proofs.LeakRel4
import Verif.Proofs.LeakRel5
import Verif.Props.ZkbSign
import Verif.Props.P3Sign
import Verif.Proofs.Conf1Dig

/-
The published values of a successful run are determined by public key, message and signature.
-/

namespace Picnic

open Spec Spec.Challenge

/-- The views are recomputed from the signature: the input of the challenge hash is determined by the signature. -/
theorem signInput_public {E : Env} {P : Params} {sk : PrivateKey} {msg buf slab sig : Buf} {mlen slen len : ℕ} (hE : EnvWF E)
    (hP : getParamSet sk.params = some P) (h3 : isPicnic3 sk.params = false) (hsk : sk.Arrays) (hpad : ZeroPad P.stateSizeBits sk.data)
    (hm : mlen ≤ msg.length) (hm32 : mlen + 200 ≤ 2 ^ 32) (hbuf : slen ≤ buf.length)
    (hslab : slab = seedSlab E P sk.data sk.pk.ciphertext sk.pk.plaintext (msg.take mlen))
    (hs : picnicSign E (some sk) msg mlen buf slen = Outcome.ok (0, sig, len)) {views : ℕ → ℕ → View}
    (hviews : ∀ k < P.numMPCRounds, HonestViews E P sk.data sk.pk.plaintext (slabSalt P slab) (slabSeed P slab k) k (views k))
    {pk : PublicKey} (hpk : pk.Arrays)
    (hct : pk.ciphertext.take P.stateSizeBytes = sk.pk.ciphertext.take P.stateSizeBytes)
    (hpt : pk.plaintext.take P.stateSizeBytes = sk.pk.plaintext.take P.stateSizeBytes) {b : Buf} (hb : b = sig.take len) :
    len = b.length ∧ decLen P b ≤ len ∧ encSigLen P b = b.length ∧ Decodes P b len ∧ ∀ v1 v2, (∀ k < P.numMPCRounds,
        OpenedViews E P (decProofs P b k).toProof (decSalt P b) pk.plaintext k (chal b k) (v1 k) (v2 k)) →
      verInput E P pk.ciphertext pk.plaintext (decSalt P b) (msg.take mlen) (chal b) (decProofs P b) v1 v2 =
        signInput E P sk.pk.ciphertext sk.pk.plaintext (slabSalt P slab) (msg.take mlen) (slabSeed P slab) views := by
  have hWF := paramsWF_of hP
  have hZ := zkbWF_of hP h3
  have hbytes := hWF.bytes
  have hnM := hWF.nMax
  have hnb := numBytes_eq (2 * P.numMPCRounds)
  obtain ⟨views', ch, hv', hR, hx, hchl, hch3, hslen, hsig, hlen⟩ := picnicSign_zkb_zero hE hP h3 hsk hm hm32 hbuf hslab hs
  have hv := hv'
  have hvv : ∀ k < P.numMPCRounds, ∀ j < 3, views k j = views' k j := fun k hk => honest_unique hWF (hviews k hk) (hv' k hk)
  obtain ⟨hsl1, hsl2⟩ := slab_lengths hZ hslab
  have hq : ∀ k < P.numMPCRounds, QWF P (chal ch k) (honestProof E P (slabSeed P slab k) (views' k) (chal ch k)) :=
    fun k hk => honestProof_wf (hv k hk) (hsl2 k hk) (hch3 k hk)
  have hel := encSig_length hchl hsl1 hq
  have hbe : b = encSig P ch (slabSalt P slab) (fun i => honestProof E P (slabSeed P slab i) (views' i) (chal ch i)) := by
    rw [hb, hsig, hlen]; exact List.take_left' hel
  have hb' : b = encSig P ch (slabSalt P slab) (fun i => honestProof E P (slabSeed P slab i) (views' i) (chal ch i)) ++ [] := by
    rw [List.append_nil]; exact hbe
  have hbl : len = b.length := by rw [hbe, hel, hlen]
  obtain ⟨hd1, hd2, hd3, hd4, hd5, hd6⟩ := dec_of_encSig hchl hsl1 hq hb'
  have hb3 : ∀ i < P.numMPCRounds, chal b i < 3 := fun i hi => by rw [hd3 i hi]; exact hch3 i hi
  have hD : Decodes P b len := by
    refine ⟨?_, ?_, hb3, ?_⟩
    · rw [hlen, encSigLen, offOf]; omega
    · rw [hlen, ← hd5]; exact decLen_le hZ hb3
    · intro i hi h0
      rw [← decProofs, hd6 i hi]
      rw [hd3 i hi] at h0
      simp only [honestProof, if_neg h0]
      rw [(hv i hi).inp 2 (by omega), ← zpad_share2 hWF (zeroPad_iff.1 hpad)]
      intro p hp _
      rw [bitsOf_zpad, trunc, if_neg (by omega)]
  refine ⟨hbl, hD.len, by rw [hd5, ← hlen, hbl], hD, fun v1 v2 hov' => ?_⟩
  have hptb : ∀ i < P.stateSizeBits, bitsOf sk.pk.plaintext i = bitsOf pk.plaintext i := fun i hi =>
    ((take_eq_iff (by rw [hpk.pt]; omega) (by rw [hsk.pk.pt]; omega)).1 hpt i (by omega)).symm
  have hvs : ∀ k < P.numMPCRounds, v1 k = views' k (chal ch k) ∧ v2 k = views' k ((chal ch k + 1) % 3) := by
    intro k hk
    have h := hov' k hk
    rw [hd6 k hk, hd3 k hk, hd2] at h
    exact honest_opened hWF hptb (zeroPad_iff.1 hpad) (hch3 k hk) (hv k hk) h
  rw [hd2]
  unfold verInput signInput
  have hcongr : ∀ outs coms gs salt m, h3Input P pk.ciphertext pk.plaintext outs coms gs salt m =
      h3Input P sk.pk.ciphertext sk.pk.plaintext outs coms gs salt m := by
    intro outs coms gs salt m
    unfold h3Input
    rw [hct, hpt]
  rw [hcongr]
  refine h3Input_congr ?_ ?_ ?_
  · intro k hk j hj
    rw [hvv k hk j hj, hd3 k hk, (hvs k hk).1, (hvs k hk).2]
    refine honest_verOuts (hv k hk) (by rw [hpk.ct]; omega) ?_ (hch3 k hk) hj
    rw [honest_sum hWF (hv k hk), hct]
    refine buf_ext (by simp [hsk.pk.ct]; omega) fun i hi => ?_
    have hi' : i < 8 * P.stateSizeBytes := by simpa using hi
    rw [bitsOf_ofBits _ hi', bitsOf_take hi', hR i (by rw [bytesFor]; omega)]
    split_ifs with h
    · rfl
    · exact enc_ge hWF.rounds (by omega)
  · intro k hk j hj
    rw [hvv k hk j hj, hd3 k hk, (hvs k hk).1, (hvs k hk).2, hd6 k hk]
    exact honest_verComs (hch3 k hk) hj
  · intro hU k hk j hj
    rw [hvv k hk j hj, hd3 k hk, (hvs k hk).1, (hvs k hk).2, hd6 k hk]
    exact congrArg _ (honest_verGs hU (hch3 k hk) hj)

namespace Leak

/-- Signing with a Picnic3 parameter set: the chain of digests starts with the first bytes of the signature. -/
theorem pubs_picnicSign_p3 {E : Env} {P : Params} {sk : PrivateKey} {msg buf sig : Buf} {mlen slen len : ℕ} (hE : EnvWF E) (hI : InvWF E)
    (hP : getParamSet sk.params = some P) (hp : sk.params ∈ picnic3Params) (hsk : sk.Arrays) (hm : mlen ≤ msg.length)
    (hm32 : mlen + 200 ≤ 2 ^ 32) (hbuf : slen ≤ buf.length)
    (hs : Picnic.picnicSign E (some sk) msg mlen buf slen = Outcome.ok (0, sig, len)) :
    P.digestSizeBytes ≤ len ∧ (sig.take len).length = len ∧
    ∃ k, (picnicSign E (some sk) msg mlen buf slen).pub = List.replicate P.numMPCRounds (.flag true) ++
      chain (nextDigest E P) ((sig.take len).take P.digestSizeBytes) k := by
  obtain ⟨P', hP', hi3⟩ := getParamSet_p3 hp
  have hWF := paramsWF_of hP
  have h3 := p3WF_of hP hi3
  have hw := hWF.words
  have hby := hWF.bytes
  have hn := hWF.nMax
  have h1 := hsk.data
  have h2 := hsk.pk.pt
  have h4 := hsk.pk.ct
  obtain ⟨hR, C, Q, hx, hc, hlen, hle, hsig, hl⟩ := picnicSign_p3_zero hE hI hP hp hsk hm hm32 hbuf rfl rfl hs
  have hsign := signPicnic3_ok (key := sk.data) (pk := sk.pk.ciphertext) (pt := sk.pk.plaintext) (msg := msg) (mlen := mlen)
    hE.perm hWF (seedWF_of hP) (merkleWF_of hP) h3 (p3Sz_of hP hi3) (hE.lowmc _ _ hP) (hI.len _ hp _ hP)
    (hI.inv _ hp _ hP) (by omega) (by omega) (by omega) hm hm32
  have hsg : ∀ s, Picnic.signPicnic3 E P sk.data sk.pk.ciphertext sk.pk.plaintext msg mlen (allocateSignature2 E P) = .ok (some s) →
      s.challengeHash = sHash E P (sSalt E P sk.data sk.pk.ciphertext sk.pk.plaintext (msg.take mlen))
        (sRoot E P sk.data sk.pk.ciphertext sk.pk.plaintext (msg.take mlen)) sk.data sk.pk.ciphertext sk.pk.plaintext (msg.take mlen) := by
    intro s h
    rw [hsign] at h
    unfold signR at h
    split at h
    · rw [hx] at h
      simp only [Outcome.ok.injEq, Option.some.injEq] at h
      rw [← h]; rfl
    · cases h
  generalize hD : sHash E P (sSalt E P sk.data sk.pk.ciphertext sk.pk.plaintext (msg.take mlen))
        (sRoot E P sk.data sk.pk.ciphertext sk.pk.plaintext (msg.take mlen)) sk.data sk.pk.ciphertext sk.pk.plaintext (msg.take mlen) = d at hsg
  have hdl : d.length = P.digestSizeBytes := by rw [← hD]; exact H_length _ _ _ _ _
  have hsd : ∃ tl, sig.take len = d ++ tl ∧ (sig.take len).length = len := by
    rw [hsig, List.take_left' hl]
    unfold sig2Bytes pre2 at hl ⊢
    simp only [sSig, hD] at hl ⊢
    exact ⟨_, by simp only [List.append_assoc]; rfl, hl⟩
  obtain ⟨tl, htl, hll⟩ := hsd
  have hpub : Pubs (fun r l => r.1 = 0 → ∃ k, l = List.replicate P.numMPCRounds (.flag true) ++ chain (nextDigest E P) d k)
      (picnicSign E (some sk) msg mlen buf slen) := by
    unfold picnicSign
    refine pubs_step (a := sk) (by quiet) rfl ?_
    refine pubs_bindq q_note fun _ _ => ?_
    simp only [hP]
    refine pubs_ite (fun h => absurd h (by rw [hi3]; simp)) fun _ => ?_
    refine pubs_bind (pubs_signPicnic3 hE.perm h3 fun s h => by rw [hsg s h]; exact hdl) fun r l ho hl => ?_
    refine pubs_bindq q_note fun _ _ => ?_
    cases r with
    | none => exact pubs_pure fun h => by cases h
    | some s =>
      obtain ⟨k, rfl⟩ := hl s rfl
      rw [hsg s ((out_signPicnic3 _ _ _ _ _ _ _ _).symm.trans ho)]
      have hq : ∀ {m : LM (Int × Buf × Nat)}, Quiet m → Pubs (fun r l => r.1 = 0 → ∃ k', List.replicate P.numMPCRounds (Pub.flag true) ++
          chain (nextDigest E P) d k ++ l = List.replicate P.numMPCRounds (.flag true) ++ chain (nextDigest E P) d k') m :=
        fun hm a _ _ => ⟨k, by rw [hm, List.append_nil]⟩
      exact hq (by quiet)
  refine ⟨by rw [← hll, htl, List.length_append, hdl]; omega, hll, ?_⟩
  have := hpub _ ((out_picnicSign _ _ _ _ _ _).trans hs) rfl
  rwa [htl, List.take_left' hdl]

/-- Signing with a ZKB++ parameter set: the chain of digests starts with the digest that every verifier computes. -/
theorem pubs_picnicSign_valid {E : Env} {P : Params} {I : Picnic1.Inst} {sk : PrivateKey} {msg buf sig : Buf} {mlen slen len : ℕ}
    (hE : EnvWF E) (hP : getParamSet sk.params = some P) (hp : sk.params ∈ zkbParams) (hI : I.Is sk.params) (hf : I.f = E.perm)
    (hX : I.X = lowmcOf P (E.lowmc P)) (hsk : sk.Arrays) (hpad : ZeroPad P.stateSizeBits sk.data)
    (hm : mlen ≤ msg.length) (hm32 : mlen + 200 ≤ 2 ^ 32) (hbuf : slen ≤ buf.length)
    (hs : Picnic.picnicSign E (some sk) msg mlen buf slen = Outcome.ok (0, sig, len)) :
    ∃ d ch k, I.ValidWith (sk.pk.ciphertext.take I.blk) (sk.pk.plaintext.take I.blk) (msg.take mlen) (sig.take len) d ∧
      expandTrits E P d = Outcome.ok ch ∧ (picnicSign E (some sk) msg mlen buf slen).pub =
        List.replicate P.numMPCRounds (.flag true) ++ (chain (nextDigest E P) d k ++
            (chalPubs P.numMPCRounds ch ++ chalPubs P.numMPCRounds ch)) ∧ Need P.numMPCRounds 0 (nextDigest E P) d k := by
  have h3 : isPicnic3 sk.params = false := (getParamSet_zkb hp).choose_spec.2
  have hWF := paramsWF_of hP
  have hZ := zkbWF_of hP h3
  have hn := blockBits_of hP
  have M := match1_of hP hI hf hX
  obtain ⟨views, hv, hpub⟩ := pubs_picnicSign_zkb (E := E) (sk := sk) (msg := msg) (mlen := mlen) (buf := buf) (slen := slen)
    hE hP h3 hsk hm hm32 rfl
  obtain ⟨i1, i2, i3, i4, i5⟩ := signInput_public hE hP h3 hsk hpad hm hm32 hbuf rfl hs hv (pk := { sk.pk with params := sk.params })
    ⟨hsk.pk.pt, hsk.pk.ct⟩ rfl rfl rfl
  have hver := C01_sign_verify E hE E.junk E.fuel le_rfl sk hsk hp _ hn hpad msg mlen hm hm32 buf slen hbuf sig len hs
    { sk.pk with params := sk.params } ⟨hsk.pk.pt, hsk.pk.ct⟩ rfl rfl rfl (sig.take len) (by rw [List.take_take, Nat.min_self]) i1.le
  rw [i1, ← i1] at hver
  generalize hb : sig.take len = b at *
  rw [i1] at hver i4
  have hfull := full_of_zero (pk := { sk.pk with params := sk.params }) hP h3 le_rfl hver
  obtain ⟨v1, v2, hO, hx⟩ := picnicVerify_zkb (pk := { sk.pk with params := sk.params }) hE hP h3 ⟨hsk.pk.pt, hsk.pk.ct⟩ hm hm32 le_rfl hfull
  have hO := hO i4
  have hi := i5 v1 v2 hO
  have hver' := hx.symm.trans hver
  rw [if_pos i4] at hver'
  obtain ⟨ch, he, hk⟩ := bind_ok_inv hver'
  have hch : b.take (numBytes (2 * P.numMPCRounds)) = ch := by
    by_contra hne
    rw [if_neg hne] at hk
    change Outcome.ok (-1 : ℤ) = Outcome.ok 0 at hk
    exact absurd hk (by decide)
  have hV := M.validWith_of hWF hZ i3 i4 hO he hch
  rw [hi] at hV he
  obtain ⟨ch', k, h1, h2, h4⟩ := hpub _ rfl _ ((out_picnicSign _ _ _ _ _ _).trans hs) rfl
  exact ⟨_, ch', k, hV, h1, h2, h4⟩

theorem pubs_picnicValidateKeypair {E : Env} {sk : Option PrivateKey} {pk : Option PublicKey} :
    Pubs (fun r l => l = [] ∨ l = [.flag (decide (r = 0))]) (picnicValidateKeypair E sk pk) := by
  unfold picnicValidateKeypair
  refine pubs_bindq (by quiet) fun pk _ => pubs_bindq q_note fun _ _ => ?_
  cases getParamSet pk.params with
  | none => exact pubs_pure (.inl rfl)
  | some P =>
    refine pubs_bindq q_note fun _ _ => ?_
    cases sk with
    | none => exact pubs_pure (.inl rfl)
    | some sk =>
      refine pubs_ite (fun _ => pubs_pure (.inl rfl)) fun _ => pubs_ite (fun _ => pubs_pure (.inl rfl)) fun _ => ?_
      refine pubs_bindq (by quiet) fun ct _ => pubs_bindq (by quiet) fun eq _ => pubs_publish ?_
      refine pubs_ite (fun h => pubs_pure (.inr ?_)) fun h => pubs_pure (.inr ?_)
      · simp [h]
      · simp [h]

theorem pubs_padding {data : Buf} {n : ℕ} : Pubs (fun r l => r = true → ∃ k, l = List.replicate k (.flag true)) (arePaddingBitsZero data n) := by
  unfold arePaddingBitsZero
  refine pubs_bindq q_tell fun _ h => ?_
  clear h
  induction numBytes n * 8 - n with
  | zero => exact fun _ _ _ => ⟨0, rfl⟩
  | succ m ih =>
    refine pubs_bind ih fun a l _ hl => pubs_ite (fun h => ?_) fun _ => pubs_pure fun h => by cases h
    obtain ⟨k, rfl⟩ := hl h
    refine pubs_bindq (by quiet) fun b _ => pubs_publish (pubs_pure fun h => ⟨k + 1, ?_⟩)
    rw [h, List.replicate_succ']

theorem pubs_picnicReadPrivateKey {sk : PrivateKey} {x : Byte} {buf : Buf} {n : ℕ} :
    Pubs (fun r l => r.1 = 0 → ∃ k, l = [.byte x, .byte x] ++ List.replicate k (.flag true))
      (picnicReadPrivateKey (some sk) (some (x :: buf)) n) := by
  unfold picnicReadPrivateKey
  have hq : ∀ {c : Option PrivateKey} {l : List Pub}, Pubs (fun r l' => r.1 = 0 → ∃ k, l ++ l' = [Pub.byte x, Pub.byte x] ++ List.replicate k (.flag true)) (pure ((-1 : ℤ), c)) :=
    fun {c l} => pubs_pure fun h => by cases h
  refine pubs_bindq q_note fun _ _ => pubs_bindq q_note fun _ _ => pubs_ite (fun _ => hq (l := [])) fun _ => ?_
  refine pubs_step (a := x) q_rd rfl (pubs_publish (pubs_ite (fun _ => hq (l := [_])) fun _ => ?_))
  refine pubs_step (a := x) q_rd rfl (pubs_publish (pubs_bindq q_note fun _ _ => ?_))
  dsimp only
  cases getParamSet x.toNat with
  | none => exact hq (l := [_, _])
  | some P =>
    refine pubs_ite (fun _ => hq (l := [_, _])) fun _ => ?_
    refine pubs_bindq (by quiet) fun d _ => pubs_bindq (by quiet) fun ct _ => pubs_bindq (by quiet) fun pt _ => ?_
    refine pubs_bind pubs_padding fun a l1 _ h1 => ?_
    refine pubs_bind (R := fun r l => r = true → a = true ∧ ∃ k, l = List.replicate k (.flag true))
      (pubs_ite (fun h r ho hr => ⟨h, pubs_padding r ho hr⟩) fun _ => pubs_pure fun h => by cases h) fun b l2 _ h2 => ?_
    refine pubs_bind (R := fun r l => r = true → b = true ∧ ∃ k, l = List.replicate k (.flag true))
      (pubs_ite (fun h r ho hr => ⟨h, pubs_padding r ho hr⟩) fun _ => pubs_pure fun h => by cases h) fun c l3 _ h3 => ?_
    refine pubs_ite (fun _ => pubs_pure fun h => by cases h) fun hc => pubs_pure fun _ => ?_
    obtain ⟨hb, k3, rfl⟩ := h3 (by simpa using hc)
    obtain ⟨ha, k2, rfl⟩ := h2 hb
    obtain ⟨k1, rfl⟩ := h1 ha
    exact ⟨k1 + (k2 + k3), by rw [List.replicate_add, List.replicate_add, List.append_nil]; rfl⟩

theorem stream_congr {next next' : Buf → Buf} (n : ℕ) : ∀ {d d' : Buf}, (∀ i, next^[i] d = next'^[i] d') →
    stream next d n = stream next' d' n := by
  induction n with
  | zero => intros; rfl
  | succ n ih =>
    intro d d' h
    rw [stream, stream, ih (d := next d) (d' := next' d') fun i => h (i + 1), show d = d' from h 0]

theorem chain_congr {next next' : Buf → Buf} {d d' : Buf} (h : ∀ i, next^[i] d = next'^[i] d') (n : ℕ) : chain next d n = chain next' d' n := by
  simp only [chain, h]

theorem need_congr {T a n : ℕ} {next next' : Buf → Buf} {d d' : Buf} (h : ∀ i, next^[i] d = next'^[i] d')
    (hn : Need T a next d n) : Need T a next' d' n := by
  simp only [Need, stream_congr _ h] at hn ⊢
  exact hn

theorem same_buf {a b : Buf} (h : a.length = b.length) : le a b := by simpa only [lw] using h

theorem same_sk {sk sk' : PrivateKey} (hp : sk.params = sk'.params) (hk : sk.pk.params = sk'.pk.params) (h : sk.Arrays) (h' : sk'.Arrays) :
    le (some sk) (some sk') := by
  refine ⟨hp, same_buf (h.data.trans h'.data.symm), hk, same_buf ?_, same_buf ?_⟩
  · rw [h.pk.pt, h'.pk.pt]
  · rw [h.pk.ct, h'.pk.ct]

/-- equal published values, equal observations -/
theorem Rel.tr {α β : Type} {R : α → β → Prop} {m : LM α} {n : LM β} (h : Rel R m n) (e : m.pub = n.pub) : m.tr = n.tr :=
  (h [] [] (by rw [e])).1

theorem chain_eq_of_pub {α β : Type} {R : α → β → Prop} {m : LM α} {n : LM β} {A : List Pub} {f : Nat → List Pub}
    (hf : ∀ i j, ∃ l, f (i + j) = f i ++ l) (h : Rel R m n) (hm : ∃ i, m.pub = A ++ f i)
    (hn : ∃ j, n.pub = A ++ f j) : m.tr = n.tr := by
  obtain ⟨i, hi⟩ := hm
  obtain ⟨j, hj⟩ := hn
  rcases Nat.le_total i j with hij | hij
  · obtain ⟨l, hl⟩ := hf i (j - i)
    rw [Nat.add_sub_cancel' hij] at hl
    exact (h l [] (by rw [hi, hj, hl]; simp)).1
  · obtain ⟨l, hl⟩ := hf j (i - j)
    rw [Nat.add_sub_cancel' hij] at hl
    exact (h [] l (by rw [hi, hj, hl]; simp)).1

end Leak

end Picnic
