import Verif.Proofs.LeakTop

/-
What an observer is supposed to know, and the existence of a function that computes the observations from it.
-/

namespace Picnic

open Spec Spec.Challenge Leak

/-- What an observer of a signing run is supposed to know: the LowMC constants, the number of iterations granted to the
sampling of the challenge, the parameter set in the key and in the public key inside it, length of the message and of the
array it is in, length of the signature buffer as stated and as it is, and a chain of digests. -/
structure Public where
  lowmc : Params → LowMCConsts
  fuel : ℕ
  params : ℕ
  pkParams : ℕ
  mlen : ℕ
  msgLen : ℕ
  slen : ℕ
  bufLen : ℕ
  digest : ℕ → Buf

/-- A function of `x` exists if the values agree whenever `x` does. -/
theorem exists_sim {ι : Type} {π : Type} {τ : Type} [Inhabited τ] (pub : ι → π) (tr : ι → τ) (h : ∀ i j, pub i = pub j → tr i = tr j) :
    ∃ Sim : π → τ, ∀ i, tr i = Sim (pub i) := by
  classical
  refine ⟨fun p => if hp : ∃ i, pub i = p then tr hp.choose else default, fun i => ?_⟩
  have hp : ∃ j, pub j = pub i := ⟨i, rfl⟩
  beta_reduce
  rw [dif_pos hp]
  exact h _ _ hp.choose_spec.symm

/-- A successful run of `picnic_sign` with a ZKB++ parameter set, together with the digest of its signature. -/
structure Run1 where
  E : Env
  hE : EnvWF E
  sk : PrivateKey
  hsk : sk.Arrays
  hp : sk.params ∈ zkbParams
  P : Params
  hP : getParamSet sk.params = some P
  msg : Buf
  mlen : ℕ
  buf : Buf
  slen : ℕ
  d : Buf
  hd : ∃ ch k, expandTrits E P d = Outcome.ok ch ∧ (Leak.picnicSign E (some sk) msg mlen buf slen).pub =
        List.replicate P.numMPCRounds (.flag true) ++ (chain (nextDigest E P) d k ++
            (chalPubs P.numMPCRounds ch ++ chalPubs P.numMPCRounds ch)) ∧ Need P.numMPCRounds 0 (nextDigest E P) d k

theorem run1_sim : ∃ Sim : Public → List Ev, ∀ R : Run1, (Leak.picnicSign R.E (some R.sk) R.msg R.mlen R.buf R.slen).tr =
    Sim ⟨R.E.lowmc, R.E.fuel, R.sk.params, R.sk.pk.params, R.mlen, R.msg.length, R.slen, R.buf.length, fun i => (nextDigest R.E R.P)^[i] R.d⟩ := by
  refine exists_sim (fun R : Run1 => (⟨R.E.lowmc, R.E.fuel, R.sk.params, R.sk.pk.params, R.mlen, R.msg.length, R.slen, R.buf.length,
    fun i => (nextDigest R.E R.P)^[i] R.d⟩ : Public)) (fun R : Run1 => (Leak.picnicSign R.E (some R.sk) R.msg R.mlen R.buf R.slen).tr)
    fun R S h => ?_
  obtain ⟨E, hE, sk, hsk, hp, P, hP, msg, mlen, buf, slen, d, ch, k, h1, h2, h3⟩ := R
  obtain ⟨E', hE', sk', hsk', hp', P', hP', msg', mlen', buf', slen', d', ch', k', h1', h2', h3'⟩ := S
  simp only [Public.mk.injEq] at h ⊢
  obtain ⟨e1, e2, e3, e4, e5, e6, e7, e8, e9⟩ := h
  have hPP : P = P' := by rw [e3, hP'] at hP; exact (Option.some.inj hP).symm
  subst hPP
  have hc : ∀ i, (nextDigest E P)^[i] d = (nextDigest E' P)^[i] d' := fun i => congrFun e9 i
  have hch : ch = ch' := by
    unfold expandTrits at h1 h1'
    rw [← e2, ← stream_congr _ hc] at h1'
    rw [h1] at h1'
    exact Outcome.ok.inj h1'
  obtain rfl := (need_congr hc h3).unique h3'
  refine Rel.tr (rel_picnicSign ⟨hE.perm, hE'.perm, e1, e2⟩ (same_sk e3 e4 hsk hsk') (same_buf e6) e5 (same_buf e8) e7) ?_
  rw [h2, h2', hch, chain_congr hc]

/-- A successful run of `picnic_sign` with a Picnic3 parameter set, together with the digest in its signature. -/
structure Run3 where
  E : Env
  hE : EnvWF E
  sk : PrivateKey
  hsk : sk.Arrays
  P : Params
  hP : getParamSet sk.params = some P
  msg : Buf
  mlen : ℕ
  buf : Buf
  slen : ℕ
  d : Buf
  hd : ∃ k, (Leak.picnicSign E (some sk) msg mlen buf slen).pub =
        List.replicate P.numMPCRounds (.flag true) ++ chain (nextDigest E P) d k

theorem run3_sim : ∃ Sim : Public → List Ev, ∀ R : Run3, (Leak.picnicSign R.E (some R.sk) R.msg R.mlen R.buf R.slen).tr =
    Sim ⟨R.E.lowmc, R.E.fuel, R.sk.params, R.sk.pk.params, R.mlen, R.msg.length, R.slen, R.buf.length, fun i => (nextDigest R.E R.P)^[i] R.d⟩ := by
  refine exists_sim (fun R : Run3 => (⟨R.E.lowmc, R.E.fuel, R.sk.params, R.sk.pk.params, R.mlen, R.msg.length, R.slen, R.buf.length,
    fun i => (nextDigest R.E R.P)^[i] R.d⟩ : Public)) (fun R : Run3 => (Leak.picnicSign R.E (some R.sk) R.msg R.mlen R.buf R.slen).tr)
    fun R S h => ?_
  obtain ⟨E, hE, sk, hsk, P, hP, msg, mlen, buf, slen, d, k, h2⟩ := R
  obtain ⟨E', hE', sk', hsk', P', hP', msg', mlen', buf', slen', d', k', h2'⟩ := S
  simp only [Public.mk.injEq] at h ⊢
  obtain ⟨e1, e2, e3, e4, e5, e6, e7, e8, e9⟩ := h
  have hPP : P = P' := by rw [e3, hP'] at hP; exact (Option.some.inj hP).symm
  subst hPP
  have hc : ∀ i, (nextDigest E P)^[i] d = (nextDigest E' P)^[i] d' := fun i => congrFun e9 i
  refine chain_eq_of_pub (f := chain (nextDigest E P) d) (fun i j => ⟨_, chain_add _ _ _ _⟩)
    (rel_picnicSign ⟨hE.perm, hE'.perm, e1, e2⟩ (same_sk e3 e4 hsk hsk') (same_buf e6) e5 (same_buf e8) e7) ⟨k, h2⟩ ⟨k', ?_⟩
  rw [h2', chain_congr hc]

end Picnic
