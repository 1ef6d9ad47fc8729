import Verif.Proofs.LeakRel3

/-
The interface functions that handle secret keys in two runs.
-/

namespace Picnic.Leak

theorem le_allocSig (E E' : Env) (P : Params) : le (allocateSignature E P) (allocateSignature E' P) := by
  refine ⟨le_map_range _ fun i _ => ?_, by simp only [lw, allocateSignature], by simp only [lw, allocateSignature]⟩
  unfold allocateProof
  simp only [lw, and_self, true_and, zeros, List.length_replicate]
  split <;> simp only [lw]

theorem le_allocSig2 (E E' : Env) (P : Params) : le (allocateSignature2 E P) (allocateSignature2 E' P) := by
  unfold allocateSignature2
  simp only [lw, and_self, true_and]
  exact le_replicate _ (le_none.2 trivial)

theorem rel_picnicSign {E E' : Env} {sk sk' : Option PrivateKey} {message message' : Buf} {len len' : Nat} {signature signature' : Buf}
    {slen slen' : Nat} (hE : EnvRel E E') (hsk : le sk sk') (hm : le message message') (hl : len = len')
    (hs : le signature signature') (hsl : slen = slen') :
    Rel le (picnicSign E sk message len signature slen) (picnicSign E' sk' message' len' signature' slen') := by
  subst hl hsl
  unfold picnicSign
  refine rel_bind (rel_deref hsk) fun a b hab => ?_
  obtain ⟨p, d, pk⟩ := a
  obtain ⟨p', d', pk'⟩ := b
  obtain ⟨h1, h2, h3⟩ := hab
  cases h1
  refine rel_bind (rel_note rfl) fun _ _ _ => ?_
  dsimp only
  cases getParamSet p with
  | none => prep <;> rel
  | some P =>
    dsimp only
    have ha := le_allocSig E E' P
    have hb := le_allocSig2 E E' P
    refine rel_ite Iff.rfl (fun _ _ => ?_) fun _ _ => ?_
    · refine rel_bind (rel_signPicnic1 hE h2 h3.2.2 h3.2.1 hm rfl ha) fun r s hrs => ?_
      clear ha hb
      prep <;> rel
    · refine rel_bind (rel_signPicnic3 hE h2 h3.2.2 h3.2.1 hm rfl hb) fun r s hrs => ?_
      clear ha hb
      prep <;> rel

theorem rel_picnicKeygen {E E' : Env} {rng rng' : Rng} {parameters parameters' : Nat} {pk pk' : Option PublicKey}
    {sk sk' : Option PrivateKey} (hE : EnvRel E E') (hr : ∀ i n, le (rng i n) (rng' i n)) (hp : parameters = parameters')
    (hpk : le pk pk') (hsk : le sk sk') :
    Rel le (picnicKeygen E rng parameters pk sk) (picnicKeygen E' rng' parameters' pk' sk') := by
  subst hp
  unfold picnicKeygen
  refine rel_ite Iff.rfl (fun _ _ => rel_pure ⟨rfl, hpk, hsk⟩) fun _ _ => ?_
  cases pk <;> cases pk' <;> cases sk <;> cases sk'
  all_goals
    try exact hpk.elim
    try exact hsk.elim
  · exact rel_bind (rel_note rfl) fun _ _ _ => rel_pure ⟨rfl, hpk, hsk⟩
  · exact rel_bind (rel_note rfl) fun _ _ _ => rel_pure ⟨rfl, hpk, hsk⟩
  · exact rel_bind (rel_note rfl) fun _ _ _ => rel_bind (rel_note rfl) fun _ _ _ => rel_pure ⟨rfl, hpk, hsk⟩
  · refine rel_bind (rel_note rfl) fun _ _ _ => rel_bind (rel_note rfl) fun _ _ _ => rel_bind (rel_note rfl) fun _ _ _ => ?_
    clear hpk hsk
    cases getParamSet parameters with
    | none => prep <;> rel
    | some P =>
      dsimp only
      have h0 := hr 0 P.stateSizeBytes
      have h1 := hr 1 P.stateSizeBytes
      generalize rng 0 P.stateSizeBytes = a at *
      generalize rng' 0 P.stateSizeBytes = a' at *
      generalize rng 1 P.stateSizeBytes = b at *
      generalize rng' 1 P.stateSizeBytes = b' at *
      clear hr
      cases a <;> cases a' <;> cases b <;> cases b' <;> prep <;> rel

theorem rel_picnicWritePrivateKey {key key' : Option PrivateKey} {buf buf' : Option Buf} {n n' : Nat} (hk : le key key')
    (hb : le buf buf') (hn : n = n') : Rel le (picnicWritePrivateKey key buf n) (picnicWritePrivateKey key' buf' n') := by
  subst hn
  unfold picnicWritePrivateKey
  cases key with
  | none =>
    cases key' <;> prep <;> rel
  | some key =>
    cases key' with
    | none => exact hk.elim
    | some key' =>
      obtain ⟨p, d, pk⟩ := key
      obtain ⟨p', d', pk'⟩ := key'
      cases buf <;> cases buf'
      all_goals try exact hb.elim
      · prep <;> rel
      · prep
        generalize getParamSet p' = o
        cases o <;> dsimp only <;> rel

theorem rel_picnicReadPrivateKey {key key' : Option PrivateKey} {buf buf' : Option Buf} {n n' : Nat} (hk : le key key')
    (hb : le buf buf') (hn : n = n') : Rel le (picnicReadPrivateKey key buf n) (picnicReadPrivateKey key' buf' n') := by
  subst hn
  unfold picnicReadPrivateKey
  cases key <;> cases key' <;> cases buf <;> cases buf'
  all_goals
    try exact hk.elim
    try exact hb.elim
  · prep <;> rel
  · prep <;> rel
  · prep <;> rel
  · prep
    refine rel_bind (rel_note rfl) fun _ _ _ => rel_bind (rel_note rfl) fun _ _ _ => ?_
    refine rel_ite Iff.rfl (fun _ _ => by rel) fun _ _ => ?_
    refine rel_bind (rel_rd (by low) rfl) fun b b' _ => rel_bind (rel_publish _ _) fun _ _ h => ?_
    cases h
    refine rel_ite Iff.rfl (fun _ _ => by rel) fun _ _ => ?_
    refine rel_bind (rel_rd (by low) rfl) fun b b' _ => rel_bind (rel_publish _ _) fun _ _ h => ?_
    cases h
    generalize getParamSet b.toNat = o
    refine rel_bind (rel_note rfl) fun _ _ _ => ?_
    cases o with
    | none => prep; rel
    | some P => dsimp only; rel

theorem rel_picnicValidateKeypair {E E' : Env} {sk sk' : Option PrivateKey} {pk pk' : Option PublicKey} (hE : EnvRel E E')
    (hsk : le sk sk') (hpk : le pk pk') : Rel le (picnicValidateKeypair E sk pk) (picnicValidateKeypair E' sk' pk') := by
  unfold picnicValidateKeypair
  refine rel_bind (rel_deref hpk) fun a b hab => ?_
  obtain ⟨p, pt, ct⟩ := a
  obtain ⟨p', pt', ct'⟩ := b
  obtain ⟨h1, h2, h3⟩ := hab
  cases h1
  refine rel_bind (rel_note rfl) fun _ _ _ => ?_
  dsimp only at *
  cases getParamSet p with
  | none => prep <;> rel
  | some P => clear hpk; prep <;> rel

end Picnic.Leak
