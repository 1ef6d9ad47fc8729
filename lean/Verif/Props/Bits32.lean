import Verif.Proofs.Bits32
import Verif.Props.Ints
import Verif.Props.ZkbSign
import Verif.Props.ZkbDecode
import Verif.Props.P3Sign

/-
C77: the library on machines where `size_t` has 32 bits.
-/

namespace Picnic

open Spec Spec.CInt Picnic.Ints

/-! ### Which bytes of the message count -/

/-- On a 32-bit machine signing a message of any length does what signing its first `length mod 2^29` bytes does on a 64-bit machine. -/
theorem C77_sign (E : Env) (sk : Option PrivateKey) (msg : Buf) (mlen : ℕ) (buf : Buf) (slen : ℕ) :
    Bits32.picnicSign E sk msg mlen buf slen = picnicSign E sk msg (mlen % 2 ^ 29) buf slen :=
  Bits32.picnicSign_eq E sk msg mlen buf slen

/-- On a 32-bit machine verifying a signature on a message of any length does what verifying it on the first `length mod 2^29` bytes does on a 64-bit machine. -/
theorem C77_verify (E : Env) (pk : Option PublicKey) (msg : Buf) (mlen : ℕ) (b : Buf) (n : ℕ) :
    Bits32.picnicVerify E pk msg mlen b n = picnicVerify E pk msg (mlen % 2 ^ 29) b n :=
  Bits32.picnicVerify_eq E pk msg mlen b n

/-- **C77**, for messages shorter than 2^29 bytes (512 MB): both functions give the same results, written bytes and failures as on a 64-bit machine, for
all keys, buffers and lengths of buffers.  Missing for the full statement: messages of 2^29 bytes and more, for which it is false (`C77_violated`). -/
theorem C77_partial (E : Env) (msg : Buf) (mlen : ℕ) (hm : mlen < 2 ^ 29) :
    (∀ sk buf slen, Bits32.picnicSign E sk msg mlen buf slen = picnicSign E sk msg mlen buf slen) ∧
    ∀ pk b n, Bits32.picnicVerify E pk msg mlen b n = picnicVerify E pk msg mlen b n := by
  refine ⟨fun sk buf slen => ?_, fun pk b n => ?_⟩
  · rw [C77_sign, Nat.mod_eq_of_lt hm]
  · rw [C77_verify, Nat.mod_eq_of_lt hm]

/-! ### Longer messages -/

/-- An accepted signature is accepted for every message with the same bytes. -/
theorem accept_of_take {E : Env} (hE : EnvWF E) (hI : InvWF E) {pk : PublicKey} (hpk : pk.Arrays)
    (hp : pk.params ∈ zkbParams ∨ pk.params ∈ picnic3Params) {msg msg' b : Buf} {k n : ℕ} (hk : k + 200 ≤ 2 ^ 32) (hm : k ≤ msg.length)
    (hm' : k ≤ msg'.length) (ht : msg'.take k = msg.take k) (hn : n ≤ b.length)
    (hv : picnicVerify E (some pk) msg k b n = Outcome.ok 0) : picnicVerify E (some pk) msg' k b n = Outcome.ok 0 := by
  rcases hp with hp | hp
  · obtain ⟨P, hP, h3⟩ := getParamSet_zkb hp
    have hF := full_of_zero hP h3 hn hv
    have h := picnicVerify_congr (junk' := E.junk) (msg' := msg') hE (le_refl E.fuel) hP h3 hpk hpk rfl rfl rfl hm hk hm' hk ht hn hn hF hF Iff.rfl
      (fun _ => rfl) (by rw [hv]; simp)
    rw [← hv]
    exact h
  · obtain ⟨P, hP, _⟩ := getParamSet_p3 hp
    rw [picnicVerify_p3 hE hI hP hp hpk hm' hk hn, ht, ← picnicVerify_p3 hE hI hP hp hpk hm hk hn, hv]

/-- On a 32-bit machine, for every parameter set and public key: a signature that is accepted for one message is accepted for every message whose length is
the same modulo 2^29 and whose first `length mod 2^29` bytes are the same. -/
theorem C77_transfer (E : Env) (hE : EnvWF E) (hI : InvWF E) (pk : PublicKey) (hpk : pk.Arrays)
    (hp : pk.params ∈ zkbParams ∨ pk.params ∈ picnic3Params) (msg msg' : Buf) (hl : msg'.length % 2 ^ 29 = msg.length % 2 ^ 29)
    (ht : msg'.take (msg.length % 2 ^ 29) = msg.take (msg.length % 2 ^ 29)) (b : Buf)
    (hv : Bits32.picnicVerify E (some pk) msg msg.length b b.length = Outcome.ok 0) :
    Bits32.picnicVerify E (some pk) msg' msg'.length b b.length = Outcome.ok 0 := by
  rw [C77_verify] at hv ⊢
  rw [hl]
  have h1 := Nat.mod_lt msg.length (show 0 < 2 ^ 29 by decide)
  exact accept_of_take hE hI hpk hp (by omega) (Nat.mod_le _ _) (hl ▸ Nat.mod_le _ _) ht le_rfl hv

/-- **C77 is violated** for messages of 2^29 bytes and more: on a 32-bit machine, for every parameter set and key, a signature that the library has made on
any message `msg` is accepted by the library for every message `msg ++ more` with `more` of 2^29 bytes, none of which the signer has seen. -/
theorem C77_violated (E : Env) (hE : EnvWF E) (hI : InvWF E) (sk : PrivateKey) (hsk : sk.Arrays) (n : ℕ) (hn : blockBits sk.params = some n)
    (hp : sk.params ∈ zkbParams ∨ sk.params ∈ picnic3Params) (hpad : ZeroPad n sk.data) (msg : Buf) (hm : msg.length < 2 ^ 29) (buf : Buf)
    (sig : Buf) (len : ℕ) (hs : Bits32.picnicSign E (some sk) msg msg.length buf buf.length = Outcome.ok (0, sig, len)) (hlen : len ≤ sig.length)
    (hpp : sk.pk.params = sk.params)
    (more : Buf) (hmore : more.length = 2 ^ 29) :
    msg ++ more ≠ msg ∧
    Bits32.picnicVerify E (some sk.pk) (msg ++ more) (msg ++ more).length sig len = Outcome.ok 0 := by
  refine ⟨fun h => ?_, ?_⟩
  · have := congrArg List.length h
    rw [List.length_append, hmore] at this
    omega
  · rw [C77_sign, Nat.mod_eq_of_lt hm] at hs
    rw [C77_verify, List.length_append, hmore, Nat.add_mod_right, Nat.mod_eq_of_lt hm]
    have hpk := hsk.pk
    have h32 : msg.length + 200 ≤ 2 ^ 32 := by omega
    have hv : picnicVerify E (some sk.pk) msg msg.length sig len = Outcome.ok 0 := by
      rcases hp with hp | hp
      · exact C01_sign_verify E hE E.junk E.fuel le_rfl sk hsk hp n hn hpad msg msg.length le_rfl h32 buf buf.length le_rfl sig len hs sk.pk hpk hpp
          rfl rfl sig rfl hlen
      · exact C02_sign_verify E hE hI E.junk E.fuel le_rfl sk hsk hp n hn msg msg.length le_rfl h32 buf buf.length le_rfl sig len hs sk.pk hpk hpp
          rfl rfl sig rfl hlen
    exact accept_of_take hE hI hpk (by rwa [hpp]) h32 le_rfl (by rw [List.length_append]; omega) (by simp) hlen hv

/-! ### Integer expressions -/

/-- Accepted for every function that is reached with the parameter set, with 32-bit types. -/
def intsOk32 (p : ℕ) : Bool :=
  match getParamSet p with
  | none => true
  | some P => functions.all fun f => !f.on P || checkAll ((f.exprs P).map Bits32.narrow)

theorem intsOk32_all : ∀ p ∈ List.range 13, intsOk32 p = true := by decide +kernel

/-- Everything else still fits: with 32-bit `size_t` and messages shorter than 2^29 bytes every integer expression of the library is defined and exact. -/
theorem C77_ints (p : ℕ) (P : Params) (hP : getParamSet p = some P) (f : Fn) (hf : f ∈ functions) (hon : f.on P = true) (e : Ex)
    (he : e ∈ f.exprs P) : (Bits32.narrow e).Faithful := by
  have h := intsOk32_all p (List.mem_range.mpr (param_lt hP))
  simp only [intsOk32, hP, List.all_eq_true] at h
  have h := h f hf
  simp only [hon, Bool.not_true, Bool.false_or] at h
  exact faithful_of_checkAll h _ (List.mem_map_of_mem he)

/-- Messages that share all their signatures on a 32-bit machine: the empty one and all of exactly 2^29 bytes. -/
theorem C77_example (N : ℕ) (hN : N = 2 ^ 29) (v w : Byte) (hvw : v ≠ w) :
    List.replicate N v ≠ List.replicate N w ∧
    ∀ (E : Env), EnvWF E → InvWF E → ∀ (pk : PublicKey), pk.Arrays → pk.params ∈ zkbParams ∨ pk.params ∈ picnic3Params → ∀ b : Buf,
      Bits32.picnicVerify E (some pk) [] 0 b b.length = Outcome.ok 0 →
      Bits32.picnicVerify E (some pk) (List.replicate N v) N b b.length = Outcome.ok 0 := by
  refine ⟨fun h => ?_, fun E hE hI pk hpk hp b hv => ?_⟩
  · have h := congrArg List.head? h
    rw [List.head?_replicate, List.head?_replicate, if_neg (by omega), if_neg (by omega)] at h
    exact hvw (Option.some.inj h)
  · have h := C77_transfer E hE hI pk hpk hp [] (List.replicate N v) (by rw [List.length_replicate, hN]; rfl) (by simp) b hv
    rwa [List.length_replicate] at h

end Picnic
