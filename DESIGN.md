# Formal model of Microsoft/Picnic (C reference implementation)

Source: `/repo` (pinned commit, read as text only).  Proof assistant: Lean 4.33.0 + Mathlib.
Build: `lake build` in `/verif/lean` (about 7 minutes on 4 cores).

## 1. Architecture

* `Verif/Model/*`  — executable model, function by function.  Every definition cites file and lines.
  Everything runs in the monad `M = Outcome`: `ok a | ub kind | abort | diverge`.
  * `ub`   : C undefined behaviour (out-of-bounds read/write, NULL dereference, free of an
             uninitialised pointer, use of an uninitialised index).  Every memory access of the model is bounds checked
             against the size that the C code allocated.
  * `abort`: a failing `assert` (the Makefile does not define NDEBUG).
  * `diverge`: an endless loop, or the iterations granted to rejection sampling are used up.
  Model/Heap (lifetimes of heap objects), Model/Endian (big-endian machines), Model/Align (addresses of word accesses), Model/Overlap (arguments that share memory), Model/Cycle (example.c, default random source), Model/Sha3 (the rest of the SHA-3 library) and Model/Leak* (observations of branches and addresses)
  are separate models of the same code for one property each.
* `Verif/Spec/*`   — small, independent specifications that do not import the model: FIPS 202 (Keccak-p bit by bit, sponge and
  SHAKE on bit strings), SHAKE on byte strings for an arbitrary permutation, LowMC over GF(2), the (2,3)-decomposition of ZKB++,
  the challenge derivations of both protocols, heap-numbered trees, key encodings and parameter constants,
  and on top of these the complete signature schemes (Picnic1: ZKB++, Picnic3).
* `Verif/Proofs/*` — helper lemmas (refinement of each model function to a pure description).
* `Verif/Props/*`  — the property theorems (`Cnn_...`) with concrete non-vacuity examples (`..._example`).

Representation: a C byte buffer is a `List (BitVec 8)` whose length is the allocated size; pointers into
buffers are (buffer, offset).  `uint32_t*` views of byte buffers are little-endian loads/stores.
The environment `Env` is universally quantified in all theorems:
* `perm`  : the 1600-bit permutation (200 bytes → 200 bytes).  `PermWF` only says that it preserves the length.  The model of the
   library's Keccak-p is the instance `keccakPerm` (C25 shows that it is FIPS 202; C23 is about this instance).
* `lowmc` : the LowMC matrices and constants.  `lowmc_constants.c` is *not* in `/repo` (only its header), so
   the values are parameters.  `ConstsWF` = documented sizes and zero padding of the round constants; `InvWF` (Picnic3 only) =
   `L(r)·Linv(r) = 1` and `K(0)·Kinv(0) = 1`.  C78 and C79 show that the constants of the
   specification satisfy both, in all parameter sets; that `lowmc_constants.c` contains them cannot be seen from `/repo`, but the
   known-answer keys fit (`C79_kats`).
* `junk`  : contents of uninitialised memory, one byte per (allocation, repetition, index).  Theorems hold for every `junk`, and
   C31 says that results do not depend on it.
* `fuel`  : iterations granted to the rejection-sampling loops.  Theorems hold for every `fuel`; `diverge` is possible only there, and
   C03/C14 say that it does not occur if the chain of digests has a challenge in the sense of the specification.

The standing hypotheses of the API theorems: key structs have their declared array sizes (`Arrays`), `mlen ≤` size of the message
object, `mlen + 200 ≤ 2^32` (beyond that the sponge is broken, see C24), `slen ≤` size of the signature object, `EnvWF E`.

## 2. Properties

`(V)` marks a theorem that proves the negation: the code violates the property.

| id | status | theorems | how |
|----|--------|----------|-----|
| C01 | proved | `C01_sign_verify` | nine ZKB++ sets; lockstep of prover and verifier at bit level, decoder inverse to encoder, hash refinement |
| C02 | proved | `C02_sign_verify` | three Picnic3 sets; seed-tree and Merkle reconstruction, mask invariant, same broadcast words |
| C03 | proved | `C03_zkb`, `C03_p3` | closed forms of sign; length bounds (C29 for Picnic3) |
| C04 | proved | `C04_max_sizes`, `C04_signature_sizes`, `C04_invalid_params` | case analysis over the table; arithmetic outside |
| C05 | proved | `C05_zkb`, `C05_p3` | the length check precedes the first write |
| C06 | proved | `C06_length` | counting repetitions with challenge 0 |
| C07 | proved | `C07_keygen`, `C07_keygen_error` | random source is an arbitrary function that may fail |
| C08 | proved | `C08_validate`, `C08_unused_bytes` | LowMC refinement |
| C09 | partial | `C09_null_private_key_partial`, `C09_null_public_key_violated` (V) | `picnic_validate_keypair(sk, NULL)` dereferences NULL |
| C10, C11 | proved | `C10_write_read`, `C10_read_write`, `C11_write_read`, `C11_read_write` | byte lists, spec `PkEncoding`/`SkEncoding` |
| C12 | proved | `C12_read_public_key`, `C12_read_private_key`, `C12_null`, `C12_write_public_key`, `C12_write_private_key` | iff with the spec encodings |
| C13 | partial | `C13_zkb_partial`, `C13_zkb_exact`, `C13_print_exact`, `C13_p3`, `C13_print_partial`, `C13_ur_violated` (V) | UR decoder under-counts the length: truncating any UR signature by up to z·⌈n/8⌉ bytes is an over-read; `C13_zkb_exact` and `C13_print_exact` say for every byte string whether it is overrun (Spec/Layout) |
| C14 | proved | `C14_zkb_fs`, `C14_p3`, `C13_zkb_exact` | all byte strings of all lengths; UR: all that are not overrun |
| C15 | partial | `C15_p3`, `C15_zkb_violated` (V) | ZKB++ accepts any trailing bytes |
| C16 | partial | `C16_zkb_reencode`, `C16_zkb_inj_partial`, `C16_zkb_sign`, `C16_p3_reencode`, `C16_p3_inj`, `C16_p3_sign`, `C16_zkb_violated` (V) | complete for Picnic3; for ZKB++ up to trailing bytes |
| C17 | proved | `C17_zkb_sign`, `C17_zkb_verify`, `C17_p3_sign`, `C17_p3_verify`, `C31_*` | loop invariants against `IsChallenge`, `IsChallenge3` |
| C18 | proved | `C18_zkb`, `C18_p3` | the hashed strings are explicit, unique, and determine key and message |
| C19 | proved | `C19_consistent`, `C19_round`, `C19_zkb` | special soundness: witness or explicit commitment collision |
| C20 | proved | `C20_simulator`, `C20_distribution`, `C20_sign`, `C20_total`, `C20_privacy` | bijection between the random choices of the signer and those of a simulator that gets no secret key, per repetition and hence for all repetitions together (equality of probability mass functions); `C20_sign` connects the signer's computation with the bytes of a signature; the tape/share of the hidden party is explicit and unique.  Shares and tapes are uniform in the statement; in the code they are SHAKE outputs of hidden seeds, and commitment and G value of the hidden view are not part of `Opened` |
| C21 | proved | `C21_online`, `C21_sign` | mask invariant over rounds, all tapes |
| C22 | proved | `C22_mpc`, `C22_mismatch` | XOR-of-shares invariant |
| C23 | proved | `C23_incremental` | sponge invariant against FIPS 202 on bit strings |
| C24 | partial | `C24_update_partial`, `C24_sign_overflow_violated` (V), `C24_sign_diverges_violated` (V), `C24_huge_update_ignored` | 32-bit wrap of `partialBlock` (CVE-2022-37454); 64-bit wrap of the bit length |
| C25 | proved | `C25_keccak` | lanes to bits, all 1600-bit states |
| C26 | proved | `C26_tree`, `C26_seed_tree` | all numbers of leaves ≥ 2 with int-size openings |
| C27, C28 | proved | `C27_tree`, `C27_merkle_complete`, `C28_merkle_binding` | all numbers of leaves ≥ 2 |
| C29 | proved | `C29_general`, `C29_opening_sizes` | counting cut nodes per level |
| C30 | proved | `C30_enc_spec`, `C30_permutation`, `C30_sbox_table` | refinement to GF(2) specification |
| C31 | proved | `C31_zkb_sign`, `C31_zkb_verify`, `C31_p3_sign`, `C31_p3_verify` | two runs with different junk agree |
| C32 | proved | `C32_seed_input`, `C32_p3_seed_input`, `C31_*_sign` | injective encoding |
| C33 | partial | `C33_zkb`, `C33_p3_partial`, `C33_invalid`, `C33_p3_violated` (V) | every accepted Picnic3 signature makes `print_signature` over-read |
| C34 | proved | `C34_param_names` | case analysis |
| C35 | partial | `C35_hashedInt`, `C35_partial`, `C35_violated` (V) | on big endian machines the expansion never terminates, for every digest |
| C36 | proved | `C36_*` | bit-vector lemmas |
| C37 | proved | `C37_sign`, `C37_sign_complete`, `C37_verify_sound`, `C37_verify_complete`, `C37_verify_reject` | refinement to the specification of the scheme, Spec/Picnic1 ("starts with", because of C15) |
| C38 | proved | `C38_sign`, `C38_sign_complete`, `C38_verify_sound`, `C38_verify_complete`, `C38_verify_reject` | refinement to the specification of the scheme, Spec/Picnic3: declarative trees and masks, no reference to the model |
| C39 | proved | `C39_extract`, `C39_p3` | special soundness of the interactive protocol (Spec/Picnic3Sec) and, through C38, of accepted byte strings; `C39_example` meets the hypotheses without a collision |
| C40 | partial | `C40_partial`; violated: `C40_unruh_violated`, `C40_full_violated` | seeds of two signatures compared through C37 and C38; key recovery (Spec/Cross) from what both signatures contain; `C40_example` has two such signatures |
| C41 | proved | `C41_privacy`, `C41_joint`, `C41_accepted`, `C41_uniform`, `C41_sign`, `C41_verify` | for any two keys an explicit bijection of the hidden tapes; equality of probability mass functions.  Tapes are uniform in the statement; in the code they are SHAKE outputs of hidden seeds, and the commitment to the hidden seed is not part of `Published`; this is not a formality: the published commitment gives away the tape (C58).  `C41_example`: two keys with the same public key |
| C42 | partial | `C42_sign_p3`, `C42_verify_zkb`, `C42_verify_p3`, `C42_sign_zkb_partial`, `C42_print_partial`; violated: `C42_sign_leak_violated`, `C42_print_leak_violated`, `C42_verify_exit_violated` (unreachable) | Model/Heap: a second model of the same functions that keeps only allocation, access and release of heap blocks, with the outcome of every data-dependent branch as a parameter; Hoare triples over the multiset of live blocks, one per function |
| C43 | partial | violated: `C43_alloc_violated`, `C43_never_reported_violated` | Model/Heap with allocations that may fail. First allocation: NULL dereference. Any pattern of failures: the error code is never returned for that reason (result logic `Res`, Proofs/Heap6). Not classified: which later failures crash and which are ignored, because the accesses of Model/Heap are an upper bound (a buffer that is not used for some challenges counts as used) |
| C44 | proved | `C44_zkb`, `C44_zkb_level`, `C44_zkb_rate`, `C44_zkb_verify`, `C44_p3`, `C44_p3_level`, `C44_p3_rate`, `C44_p3_verify` | Spec/Soundness: answerable challenges and what a set of hashed strings reveals.  By special soundness (three answers in one repetition of ZKB++; two answers and the preprocessing in one repetition of Picnic3, C39) every repetition excludes challenges; the rest is counting, and arithmetic for the numbers of the parameter sets.  The statement is about a uniformly random challenge; that SHAKE behaves like a random function is not expressible.  The step from the model to the specification is C37, C38 |
| C45 | proved | `C45_same_results`, `C45_sign_zkb`, `C45_sign_picnic3`, `C45_keygen`, `C45_write`, `C45_read`, `C45_validate`, `C45_permutation` | Model/Leak*: every function that handles secrets once more, in a monad that records what an observer sees (branch outcomes, loop bounds, indices, offsets and lengths of blocks) and, without effect on the run, the values the code makes public (outcome of the check of the circuit output, digests of the challenge chain, challenge values).  Proofs/LeakErase: same results.  Proofs/LeakRel*: two runs on inputs of equal lengths that publish the same values make the same observations, whatever the permutation of the hash function.  Proofs/LeakPub, LeakTop: what a successful run publishes is T times `true`, the chain of digests and the challenge values, and the first digest is determined by the signature (`Inst.ValidWith`).  The simulator is quantified before key, message and permutation and does not get the signature: since signing is deterministic, a simulator with access to signature and hash function could in principle search for the key and the statement would say little |
| C46 | partial | `C46_sizes`, `C46_keygen_sign_partial`, `C46_verify_partial`; violated: `C46_verify_L1_full_violated`, `C46_validate_iff` | Model/Align: a third model that keeps only the addresses of word and pointer accesses, for an arbitrary placement of all objects; holds for key generation and signing with all parameter sets and for verification with all but Picnic_L1_full.  `C46_example` |
| C47 | proved | `C47_life_cycle`, `C47_zkb`, `C47_picnic3`, `C47_no_keys` | Model/Cycle translates example.c; composition of C01, C02, C03, C05, C07, C08 with fresh junk for every call.  `C47_example` runs to the end for all parameter sets |
| C48 | partial | `C48_random_bytes`, `C48_handles_partial`, `C48_keygen`, `C48_windows`, `C48_windows_keygen`; violated: `C48_handles_violated`, `C48_supercop_violated` | Model/Cycle (Linux), Model/RandomOther (Windows, SUPERCOP); the operating system is an arbitrary function (on Windows one that meets the documented contract of `BCryptGenRandom`, `BCryptWF`).  Only the claim about open files fails; `C48_handles_violated` counts exactly how many stay open.  The SUPERCOP variant violates the claim about failures: `randombytes` returns nothing, so 0 is returned whatever it stored |
| C49 | proved | `C49_hash`, `C49_oneshot`, `C49_arguments`, `C49_order`, `C49_permutation`, `C49_tables`, `C49_sha3`, `C49_shake`, `C49_bytes`, `C49_known_answer` | Model/Sha3 (the parts of sha3/ that Picnic itself does not call), Spec/Sha3 (sponge over an arbitrary permutation of bit strings, SHA-3, Keccak-p[1600, nr]).  The unused bits of the last byte must be zero (KeccakHash.h does not say so); pieces are below 4 GB (C24).  The known answer is a kernel evaluation of the model and agrees with the published function |
| C50 | proved | `C50_p3`, `C50_zkb`, `C50_spec_p3`, `C50_spec_zkb` | Spec/Binding: the strings hashed in a verification and collisions between those of two verifications (`Clash`).  Two transcripts with the same challenge are compared from the challenge string down to the seeds; seed trees from the leaves up to the revealed nodes, the Merkle tree from the root down to the opened nodes.  The step from accepted byte strings to transcripts is C37, C38.  A right child that does not exist leaves only one seed of the output of a hash to compare, which `SeedCollide` says.  Nothing is claimed about signatures with different challenges.  `C50_p3_example`, `C50_zkb_example` meet the hypotheses without a collision |
| C51 | proved | `C51_zkb`, `C51_p3`, `C51_zkb_verify`, `C51_p3_verify` | Spec/Forger: an adaptive forger, and what it means that it forges, collides, inverts, knows.  A string that is hashed only after the question does not help, unless its digest had been named before (`zkb_early`, `p3_early`: induction along the paths of the Merkle tree); then C44 and a union bound over the questions.  The answers are independent and uniform, of any type from which the challenges are read in a fair way (C52: digests); a question that is asked twice counts twice.  Not expressible: that SHAKE delivers such digests.  `C51_zkb_example`: the set that is bounded is not empty; `C51_p3_example`: an honest signer answers everything |
| C52 | proved | `C52_zkb`, `C52_p3`, `C52_chain_zkb`, `C52_chain_p3`, `C52_forge_zkb`, `C52_forge_p3` | Spec/Distribution: the challenge that is read off a list of digests.  A renaming of the usable values by position is realised by a bijection of the digest lists (`Equi`, `equi_list`, `reads3_map`), so any two challenges have equally many lists.  `C52_chain_*`: the challenge of the specification (and of the code, C17, C37, C38) is the one that is read off the chain of digests; `C52_forge_*`: C51 with digests as answers.  That the chain of SHAKE digests is random is not expressible.  `C53_zkb_example`, `C53_p3_example`: every challenge has a list |
| C53 | proved | `C53_zkb`, `C53_p3`, `C53_share_zkb`, `C53_share_p3` | Union bound over blocks of M digests: a block without a usable value (ZKB++: only the all-0xFF block) or without a new repetition (Picnic3: `chunk_equiv` splits a digest into independent numbers).  `C53_share_*`: challenges and failures exhaust all lists.  `C53_example`: failures exist |
| C54 | proved | `C54_plaintext`, `C54_ciphertext`, `C54_count` | `Generates`: `picnicKeygen` with a random source that delivers two given strings.  By C07 the keys are the first n bits of the strings; changing bits is a bijection of the strings.  The ciphertext is uniform since encryption is a permutation of the plaintexts for every key (C30).  `C54_example`: the matrices can be invertible |
| C55 | proved | `C55_read_sign` | C12 (what is read), C08, `C21_sign`, `C22_mismatch` (no signature unless the relation holds), C01, C02.  `C55_example`: accepted byte strings with invalid keys exist for every parameter set |
| C56 | partial | `C56_zkb_partial`, `C56_zkb_returns_partial`, `C56_no_keys`; `C56_labels_violated`, `C56_p3_violated` | Model/Vectors is the program create_test_vectors.c.  ZKB++: every item before the parts of the signature is given explicitly, the parts are those of C33, the verdict is that of C01.  Violated: the label `pk_p` shows the ciphertext and `pk_C` the plaintext (concrete run); with Picnic3 printing reads out of bounds (finding 4) in every run in which signing succeeds (`C56_p3_example`: such runs exist) |
| C57 | partial | `C57_zkb_violated`, `C57_p3_violated` | Violated in every successful signature.  Model/Residue repeats `sign_picnic1` and `sign_picnic3` with the contents of released blocks as an additional result (`released1`, `released3`: the same function otherwise).  ZKB++: the three input shares in the released views add up to the key, in every repetition.  Picnic3: the released masked key and random tapes give the key by a public linear map, in every repetition (finding 16).  `C57_example`: instances for every parameter set |
| C58 | partial | `C58_p3_violated`, `C58_p3_forge`, `C58_exception` | **Violated: one Picnic3 signature gives the secret key** (finding 18).  Spec/Recover contains the procedure `recoverKey`; it uses only the signature and public functions.  It is proved to return the key for every successful signature in which some unopened party is not the last one.  With random digests the exception has probability 16^-u exactly (u = 36, 52, 68).  `C58_p3_forge`: with the result every message can be signed, and `picnic_verify` accepts.  `C58_example`: instances for all three parameter sets in which the exception does not occur.  ZKB++ is not affected by this: there tapes, commitments and Unruh values use different prefixes (C20, C32) |
| C59 | partial | `C59_zkb`, `C59_zkb_secrets`, `C59_zkb_uses`, `C59_p3_partial`, `C59_p3_violated`, `C59_p3_uses` | Spec/Domains lists the uses of the hash function with their data and strings.  ZKB++: the string determines purpose and data, by prefix bytes and lengths.  Picnic3: violated by tape and commitment (C58), and this is the only exception (`C59_p3_partial`).  `C59_zkb_uses`, `C59_p3_uses`: everything that the specifications of C37 and C38 hash is of this form, so this holds for the library.  The string from which seeds are derived (key ‖ message ‖ public key ‖ length) is only compared with itself (`C59_zkb_secrets`): for suitable key and message it has the form of other strings |
| C60 | partial | `C60_seed_violated`, `C60_merkle_violated`, `C60_seed_partial`, `C60_seed_pass`, `C60_seed_bound_violated`, `C60_merkle_pass`, `C60_lowmc_violated`, `C60_lowmc_partial`, `C60_serialization`, `C60_roundtrip`, `C60_sig_serialize`, `C60_vectors`, `C60_modified` | Model/Tests contains the test functions of tree_test.c and unit_test.c.  **Violated**: the tree tests and the LowMC tests for 129 bits read outside their arrays, and the bound on the number of revealed seeds is wrong for levels 3 and 5 (finding 19).  With arrays of the right sizes (the sizes are parameters of the model): `C60_seed_partial` gives the result for every list, `C60_seed_pass` and `C60_merkle_pass` say which calls pass, `C60_seed_bound_violated` gives lists, and outputs of `rand`, for which a correct library fails the test (lower bound on the number of revealed nodes, `rev_lower`).  The serialisation tests pass for all random bytes; `do_test_sign` gives 1 exactly for the expected signature; `picnic_test_modified_signatures` passes, or a challenge is never sampled, or an altered signature is accepted (C50). |
| C61 | partial | `C61_vector`, `C61_accepted`, `C61_slack_violated`, `C61_zero_vectors`, `C61_sizes`, `C61_file`, `C61_ignored_violated`, `C61_header_violated`, `C61_short_violated`, `C61_main` | Model/Kats contains kats_test.c (a file is its list of lines); Spec/Kats describes the text format.  `C61_vector`: for keys that belong together the result is 1 exactly if the vector contains the signature of `picnic_sign` and, for ZKB++, this is at most 5000 bytes shorter than `picnic_signature_size`; `C61_accepted`: what an accepted vector guarantees; `C61_file`, `C61_main`: result for files in the format and of the program.  **Violated** (finding 20): correct vectors are refused (`C61_slack_violated`, for every environment; `C61_zero_vectors` gives vectors), damaged lines after a good vector and the copy of the message are ignored, a short `sm` leads outside the array |
| C62 | proved | `C62_simulator`, `C62_adversary`, `C62_recover`, `C62_many`, `C62_many_recover`, `C62_chosen`, `C62_chosen_recover`, `C62_library` | Spec/Rom: an oracle is a table from strings of at most N bytes to values of M bytes (N, M as large as wanted), all tables equally likely; the signer asks it, the simulator gets random answers and writes those of opened parties into the table.  `C62_simulator`: both observations (signature, table without the strings that contain the secret key or a digest of the seed of an unopened party) have the same probabilities up to 2(3T)²/2^(8·seed).  Proof: the answers are the fixed point of the questions (Proofs/RomSwap), exchanging written answers and table entries is a bijection that counts (`prob_swap`), the tapes of hidden parties are converted from key sk to key 0 (Proofs/RomConv, as in C20, now with bytes), and the seeds, digests of seeds and salt collide rarely (Proofs/RomBad, RomProb; separation of strings by C59).  `C62_adversary`: for a procedure that asks at most Q questions, adaptively, the results differ by at most (3(3T)²+4TQ)/2^(8·seed) and the probability that it asks for the string with the secret key when given the simulated signature (the simulator does not use the seeds of unopened parties nor their digests, Proofs/RomAdv, RomHit).  `C62_recover`: so whoever computes a fitting key from a signature finds one almost as often without.  `C62_library`: with the table of SHAKE the signer makes the bytes of `picnic_sign`.  `C62_example`: for every parameter set a key with which all hypotheses hold.  `C62_many`, `C62_many_recover`: the same for the signatures of k different messages, with the bound k(4TQ+400kT²)/2^(8·seed), by induction on k: the other signers are part of the procedure (Proofs/RomSigner: a signer depends on few values of the table and on the chain of digests), they ask rarely for what the simulator writes (Proofs/RomClash), and then the simulator becomes part of the procedure (Proofs/RomMany).  Equal messages give equal signatures, so this is no restriction.  Limit: SHAKE is not a random oracle.  `C62_chosen`: the messages are chosen by the procedure as it goes along (Spec/RomAdapt, `Player`: a tree of questions and messages to be signed; at most k, different from each other); the simulator writes into the table that the questions and simulations so far have left.  Proof: induction over the procedure; at each signature the signer is exchanged for the simulator while the strings of earlier signatures, which the table must answer as written, are carried along as an overlay (Proofs/AdaptPatch, AdaptHit, AdaptStep, AdaptGame, AdaptMain; `AdaptCourse` translates to the statement).  `C62_chosen_one`: with one message at the beginning it is C62_adversary.  Only different messages: the signer is deterministic, so signing a message again gives nothing new. |
| C63 | proved | `C63_forge`, `C63_candidates`, `C63_small`, `C63_many`, `C63_many_candidates`, `C63_chosen`, `C63_chosen_candidates`, `C63_library` | Spec/RomForge: validity of a signature with an oracle for SHAKE (the definitions of Spec/Picnic1 with the oracle in place of the hash function), forgers as adaptive procedures.  `C63_forge`: the probability of a valid signature is at most that of having asked for, or opened, commitments to three views whose key shares add up to a fitting key, plus the bound.  Proof: the verifier is appended to the forger (Proofs/ForgeVerify: the at most 12T+1 strings that it asks for, validity depends on nothing else but the chain of the challenge), questions are put in an order (Proofs/ForgeProc, ForgeChain); if no two answers collide and no answer contains one asked later (ForgePoints), then when the string for the challenge is first asked every commitment in it belongs to at most one view asked before, and each repetition has a challenge that cannot be answered unless the three views give a key (Proofs/ForgeSound, from the special soundness C21); so the challenge read from the fresh answer is one of 2^T of 3^T (Proofs/ForgeLucky, also counting the rejected values of the sampling and the chain).  `C63_small`: the bound as a power of two.  `C63_library`: with the table of SHAKE, `picnic_verify` accepts exactly these signatures.  `C63_example`: for every parameter set a forger with which all hypotheses hold.  `C63_many`: the forger is given the signatures of k messages and must sign another one; by C62 (Proofs/RomMany, `many_real_sim`, with forger and verifier as the procedure) the signatures may be simulated, and the simulator with its rewritten oracle is a base for the argument above (Proofs/ForgeSimChain, ForgeSim: which values of the oracle the simulator uses, that its answers have different digests, that a new message cannot use a digest that it wrote; Proofs/ForgeMany).  `C63_many_candidates`: how many strings are to be searched for the key.  `C63_many_example`: key, forger and oracle with which all hypotheses hold and the forgery succeeds.  In `C63_many` the k messages are fixed before the oracle is chosen.  Limits: SHAKE is not a random oracle; that a fitting key is hard to find is the assumption on LowMC.  `C63_chosen`: the messages are chosen by the forger, one after the other.  Proof: C62_chosen with the verifier appended; the forger with the simulator is then itself a forger without signer (Proofs/AdaptForge, `lazy`: it answers its own requests from values chosen beforehand, and leaves out of the table the one string per signature that contains the message), to which the argument of C63_forge applies (Proofs/AdaptBound).  The forger has exactly k messages signed (`Uses`; a forger that needs fewer can have others signed and ignore them).  `C63_chosen_candidates` counts the strings among which the key is found; `C63_chosen_example` is a forger whose first message depends on an answer. |
| C64 | proved | `C64_forge`, `C64_candidates`, `C64_small`, `C64_library` | Spec/RomForge3: Picnic3 (Spec/Picnic3, which takes any function from strings to endless byte sequences for SHAKE) with an oracle, key-only forgers as adaptive procedures.  `C64_forge`: the probability of a valid signature is at most that of having asked for the strings that reveal a fitting key (Spec/Soundness `Reveals`), plus the bound.  Here the verifier is not appended to the forger: the strings that the verifier hashes and the forger has not asked for are functions of the signature and of the other answers (Proofs/Rom3Same, Rom3Trans: two transcripts of one signature under oracles that differ in one string hash the same strings), so their digests are fresh and seldom occur in earlier questions (Rom3Core, Rom3Main `prob_bad4`, `prob_bad5`).  Otherwise, when the string for the challenge is first asked, the first message with the strings asked before can be answered for at most one challenge in 2^level unless these strings reveal a key (Proofs of C21 for Picnic3), and the challenge is read from the fresh answer and the chain of rejected blocks behind it (Rom3Chain; m blocks of the chain suffice but with probability (u+1)/2^(54m)).  `C64_candidates`: q questions determine at most q² keys to be tried.  `C64_small`: the bound as a power of two.  `C64_library`: with the table of SHAKE, `picnic_verify` accepts exactly these signatures (`Regular` follows from the invertibility of the matrices, `InvWF`).  `C64_example`: for every parameter set a forger with which all hypotheses hold.  A version for forgers that are given signatures would be false for this code: by C58 the secret key can be computed from one signature. |
| C65 | proved | `C65_strong`, `C65_signed`, `C65_other_message`, `C65_library` | Spec/RomStrong: as C63 (chosen messages), but the signature must only differ from the one that was given for this message.  Proof: the course of the game is that of C63_chosen, with the list of the signatures given (Proofs/StrongBound `record`).  If the forged signature is on a message that was signed and the string hashed for its challenge is the one that the simulator wrote into, then challenge, salt and commitments are those of the simulated signature; an opened view that differs from the simulated one has the same commitment, or the same output of G, which is a collision between a question and something the simulator wrote (Proofs/StrongTwin `lazy_twin`, `strong_cases`); if nothing differs, the signature is the same byte by byte.  Otherwise the argument of C63 applies.  `C65_library`: with SHAKE for the oracle, an accepted byte string that does not begin with a given signature contains a valid one that was not given.  Repeated messages are no restriction because the signer is deterministic. |
| C66 | proved | `C66_exact`, `C66_ranges`, `C66_signature_size`, `C66_serialize`, `C66_tree`, `C66_short` (limit), `C66_wrong` (limit) | Spec/CInt: C integer types, promotions, usual arithmetic conversions, unsigned wrap, undefined signed overflow, shifts, conversions, and next to it the same expression over the integers.  Model/Ints: the integer expressions of 54 groups of functions (279 to 482 per parameter set) with their C types; parameter fields are constants, other objects variables with ranges.  Proofs/CInt: an interval checker with a soundness theorem for all values; the check itself is evaluated by the kernel for each parameter set.  `C66_ranges`: the ranges are inhabited.  `C66_signature_size`, `C66_serialize`, `C66_tree`: the typed formulas give the numbers of the other models. |
| C67 | proved | `C67_oneway`, `C67_numbers`, `C67_keys`, `C67_inverter`, `C67_p3_oneway` | Spec/RomOneWay: the inverter plays the game of C65 with simulated signatures, lists the strings that were asked for, written into, or hashed for the verification of the result, and answers one of the guesses (what a string begins with, or the sum of the key shares in three strings).  `C67_oneway`: average over the random bytes of `picnic_keygen` (whose results are uniform by C54) of C65_strong; a betrayed key is one of at most S + S³ guesses with S = Q' + k (9T + 2) (`C67_inverter`), so choosing one at random costs this factor; success of the inverter is acceptance by `picnic_validate_keypair`.  The inverter is a definition, so the statement is not one about the existence of some function; its running time is not modelled (it lists and adds strings; the oracle can be sampled lazily).  `C67_numbers`: the additive term is at most 2^-21 for k ≤ 2^30, Q ≤ 2^60.  `C67_p3_oneway`: Picnic3 without signatures, factor R²; with signatures it is false (C58).  Examples: `C67_example`, `C67_p3_example` (procedures that win for all random bytes of key generation and the table of SHAKE). |
| C68 | proved | `C68_verify_work`, `C68_numbers` | Model/LeakVerify: verification once more in the monad of C45 (same results: Proofs/LeakVerifyErase, part of the statement), so that every access to an array, every byte of a block that is copied, compared, cleared or hashed, every test, loop and permutation leaves an observation; Spec/Work counts them.  Proofs/Work, WorkHash: a calculus of bounds with two prices (one for an elementary step, one for a permutation; the price of a permutation is paid out of the bytes absorbed and squeezed since the last one); WorkZkb, WorkTree, WorkPicnic3: a bound for every function, put together by the proof itself (the bound of a function is the number that its proof constructs) and evaluated in the kernel for the twelve sets, compared with the table in Spec/Work.  Lengths that come out of the signature or a tree (revealed nodes, seed infos, positions on tapes) are bounded by postconditions.  The bound holds for runs that go wrong as well (they end there).  The number of rehashes granted is `E.fuel`; it is arbitrary, and a run that ends within it is the run of the code; when it ends is C14, and C53 says how many are needed.  Examples: `C68_zkb_example` (accepted signatures with arbitrary bytes after them), `C68_p3_example`, `C68_count_example` (an exact count). |
| C69 | proved | `C69_untouched`, `C69_leftover`, `C69_unusable` | Every early return of picnic_keygen as modelled in Model/Api; the last theorem joins the leftover objects with the theorems about damaged keys (C21, C22) and key validation (C08).  A random source that fails is taken to leave the buffer as it is (the system source could have written part of it: then `sk->data` or `pk->plaintext` would hold that part; the return value is the same).  That LowMC does not map zero to zero is a hypothesis, because the constants are not in the repository; the example shows tables that meet it for every set.  Note that after a failure at the second request the secret already drawn stays in `sk->data`. |
| C70 | proved | `C70_sign_work`, `C70_keygen_work`, `C70_validate_work`, `C70_example`, `C70_numbers` | The calculus of C68 applied to the model with observations of C45 (LeakApi, LeakZkb, LeakPicnic3, LeakTree); Proofs/WorkSign: a bound for each further function, with the invariants it needs (dimensions of the trees in the list of repetitions, position in the broadcast messages, lengths of the opened seeds), evaluated in the kernel for the twelve sets and compared with the tables in Spec/Work.  Work inside malloc, free and the random source is not counted, `E.fuel` is the number of rehashes granted as in C68. |
| C71 | proved | `C71_zkb`, `C71_p3`, `C71_example`, `C71_measured` | Model/Heap records the size of every requested block (structures as laid out on 64-bit machines) and the largest number of bytes allocated at the same time.  Proofs/HeapSize: `Req m n`, from every heap and with any failing allocations a run of `m` never holds more than `n` additional bytes; a bound for each function, found by the rules and evaluated in the kernel for the twelve sets against the tables in Spec/Memory.  The lengths that depend on the challenge are those that Model/Tree computes for a list of distinct repetitions (`Spec.Opening`); C29 bounds them.  The bounds count short-lived blocks as if they lived to the end; `C71_measured` compares them with the exact peak of small runs (2 to 20 % above; about 4 % and less with more repetitions).  Not counted: the stack, overhead inside malloc. |
| C72 | proved | `C72_sign`, `C72_in_place`, `C72_keygen`, `C72_keys`, `C72_example`; needed conditions: `C72_keygen_same`, `C72_same_place` | Model/Overlap: all objects of the caller lie in one list of bytes, arguments are addresses, key objects have the layout of picnic.h, `memcpy` between overlapping areas is `UB.overlap`.  Proofs/Overlap*: `Sim R x y`, whatever the call `x` on separate objects returns, the call `y` in memory returns something related; every write goes through `put`, which gives the frame (`Spec.OnlyChanges`).  `sign` takes key and message from memory before the first write to the caller's memory, because `sign_picnic1`, `sign_picnic3` write only to allocated blocks (read off from the source); `LowMCEnc` and the serializers are modelled write by write.  Verification writes nothing to the caller's memory and is not repeated here.  See finding 22. |
| C73 | proved | `C73_zkb`, `C73_p3`, `C73_mixed`, `C73_zkb_example`, `C73_p3_example`, `C73_mixed_example` | Proofs/CrossSet: the length of the string hashed for the challenge is a number given by the parameter set plus the length of the message; these numbers differ for all pairs of sets except (3, 11) and (5, 12), where the strings hashed for commitments have different lengths.  Spec/CrossSet: `CrossClash`.  From C37 and C38.  The restriction to messages of the same length is needed by this argument: nothing that is hashed names the parameter set, so that the string for one set can be that for another one with a longer message (compare C40); no signatures are known that use this. |
| C74 | partial (violated) | `C74_zkb_length`, `C74_zkb_average`, `C74_zkb_example`, `C74_p3_length`, `C74_p3_average`, `C74_p3_average_partial`, `C74_average_violated`, `C74_p3_max`, `C74_p3_max_partial`, `C74_max_violated` | Spec/Sizes: the published table; the length as a function of the challenge (for Picnic3 by the number `cut` of subtrees without opened repetitions).  The length of every signature is this function of the challenge (from C06, C17, C38).  Averages are exact sums over all challenges: every third value is 0 (ZKB++); for Picnic3 the challenges for which node `x` is the top of such a subtree are counted by binomial coefficients (Proofs/Sizes, SizesNum; the final numbers are compared by kernel computation), and one in sixteen unopened parties is the last one.  Maximum: bound for `cut` by counting the nodes of each level that have two children, attained by explicit challenges, so the maxima 13564, 30104 and 53088 are exact (SizesMax).  Violated for parameter set 8 (maximum) and 9 (average), finding 23.  Challenges are uniformly random for random digests by C52. |
| C75 | partial (violated) | `C75_partial`, `C75_keys_violated`, `C75_validate_violated`, `C75_example` | The accesses of Model/Align with the objects they touch (Model/Alias: sizes, declared types).  `TypeSafe` (Spec/Alias) is the rule of C11 6.5p7; bytes may always be accessed as characters, so `uint8_t` accesses are left out.  Proof: words and pointers are accessed in different parts of the memory (`Reg`), by bounding every index.  Holds for key generation, signing and verification if the caller's keys are in allocated storage; violated if they are variables, and always by `picnic_validate_keypair` (finding 24).  Not modelled: types that `memcpy` carries from its source to allocated storage; reuse of freed memory; the constants are taken to be arrays of `uint32_t`. |
| C76 | partial (violated) | `C76_partial`, `C76_threads_partial`, `C76_threads_violated`, `C76_window`, `C76_example` | Model/KeccakStatic: the SHA-3 code compiled with `KeccakReference`, where the tables are variables.  One thread: the tables are those of FIPS 202 whatever they contained before (loop invariants).  Several threads: the tables may be different in each round of the permutation (`Moment.At`: where another thread is in its computation); the result is right if no other thread works on the constant of the round that is being computed, and wrong for a concrete state otherwise (finding 25).  `C76_window` says exactly when a constant is wrong.  Simplifications: one other thread at a time; the values of a race are those of an interleaving of single accesses (in C11 a data race is undefined).  In the build of the Makefile the tables are constants, so this does not happen there. |
| C77 | partial (violated) | `C77_sign`, `C77_verify`, `C77_partial`, `C77_transfer`, `C77_violated`, `C77_ints`, `C77_example` | Model/Bits32: the functions through which the length of the message passes, with `byteLen * 8` computed modulo 2^32 (/repo/hash.c:23).  Signing and verifying a message of any length is the same as on a 64-bit machine with the length modulo 2^29 (refinement, function by function), so below 512 MB everything proved for 64-bit machines holds, and from 512 MB on a signature is accepted for other messages (finding 26).  `C77_ints`: all other integer expressions of Model/Ints stay exact with 32-bit `size_t` and `ptrdiff_t`.  Simplification: lengths of signature buffers are below 2^32 and only compared, so they are natural numbers as in the first model. |
| C78 | proved | `C78_tables`, `C78_sign_verify`, `C78_kats`, `C78_permutation`, `C78_example`, `C78_generated`, `C78_unique`, `C78_sequences` | Model/LowMCTables: the constants of the three instances with full S-box layer as numbers.  `C78_tables`: with them the hypotheses `EnvWF` and `InvWF` of all other theorems hold (products of matrices in the kernel, n steps for each matrix; proved correct for all matrices in Proofs/LowMCTables).  `C78_kats`: the key pairs of /repo/kats satisfy the LowMC relation, which ties the numbers to the project.  `C78_generated`: the numbers are exactly those that the generator of the specification makes (Spec/Grain: 80-bit register of Grain, self-shrinking, rejection of singular matrices); the sequence is computed in the kernel with bits packed into numbers, each rejected matrix has a vector in its kernel as certificate, each accepted one its inverse.  `C78_unique`: the generator makes no other instance; `C78_sequences`: the sequences exist.  For the other six parameter sets see C79. |
| C79 | proved | `C79_env`, `C79_life_cycle`, `C79_sign_verify_zkb`, `C79_sign_verify_p3`, `C79_permutation`, `C79_kats`, `C79_example`, `C79_generated`, `C79_unique`, `C79_round_keys` | `libEnv`: Keccak of the library (C25) and the constants of the specification for all twelve parameter sets (Model/LowMCTables, …128, …192p, …256).  What stays arbitrary: contents of uninitialised memory and the bound of the challenge search.  `C79_permutation` removes the assumption of C30 that the linear layers are invertible; `C79_kats` and `C79_example`: the keys of the known-answer files of the twelve parameter sets are valid (relation, and result of picnic_validate_keypair).  `C79_generated` and `C79_unique`: the constants of all parameter sets are exactly those that the generator makes (17 million kept bits; Proofs/GrainChunks evaluates the generator in 22 chunks of 2^21 pairs, each with the contents of the register and the number of kept bits at its border).  `C79_round_keys`: different secret keys have different round keys. |
| C80 | proved | `C80_zkb`, `C80_p3`, `C80_unique_zkb`, `C80_unique_p3`, `C80_exists_zkb`, `C80_exists_p3`, `C80_example_zkb`, `C80_example_p3`, `C80_keygen`, `C80_validate`, `C80_exists_lowmc` | Spec/Standard fixes the instance of the specification without the library: numbers of the parameter set, SHAKE of FIPS 202 on bits, LowMC of the generator (blocks are continued with zeros).  It exists, and two such instances have the same hash function and the same LowMC entries; Proofs/SameInst shows that they then have the same signatures and the same valid strings.  With C25, C37, C38 and C79 the library signs and verifies exactly as this standard says.  `C80_keygen`, `C80_validate`: the same for key generation and validation (the public key is the LowMC encryption of the standard).  What stays: the bound of the challenge search (answers are for every large enough bound, or whatever the bound if the library answers at all), and the trust that `lowmc_constants.c`, which is not in `/repo`, contains these constants.  That a signature of the standard exists for a given key and message (the challenge search ends) is not proved; the examples are keys. |

Examples meeting the hypotheses: `zkb_example`, `zkb_verify_example`, `p3_example`, `print_example`, `endian_example`, `C19_round_example`,
`zkb_conform_example`, `p3_conform_example`, `C20_example`, `C45_example_zkb`, `C26_example` … `C29_example`, and `example`s next to the smaller theorems.

## 3. Findings (disagreements between code and properties)

1. `deserializeSignature` (picnic_impl.c) computes the expected length of a UR signature without the extra input share inside the
   value G of challenge-0 repetitions: heap over-read on truncated signatures (`C13_ur_violated`).
2. `deserializeSignature` accepts trailing bytes for ZKB++: signatures are malleable (`C15_zkb_violated`, `C16_zkb_violated`).
3. `picnic_validate_keypair` reads `publickey->params` before its NULL check (`C09_null_public_key_violated`).
4. `print_signature2` prints `stateSizeBytes + andSizeBytes` bytes of the `andSizeBytes`-byte buffer `msgs` (`C33_p3_violated`).
5. `SpongeAbsorb` truncates `partialBlock` to 32 bits: out-of-bounds access or endless loop for messages near 2^32 bytes
   (`C24_sign_overflow_violated`, `C24_sign_diverges_violated`; CVE-2022-37454).
6. `HashUpdate` multiplies the byte length by 8 in 64 bits: lengths that are multiples of 2^61 hash as empty (`C24_huge_update_ignored`).
7. `bitsToChunks` stores chunks through byte writes into `uint16_t` and then swaps: on big endian machines challenge expansion never
   ends (`C35_violated`).
8. Seed derivation is not separated between parameter sets of equal block size: a key used with FS and UR of one level shares all
   seeds and the salt, and a repetition with different challenges yields the key (`C40_unruh_violated`); the salt of a Picnic3 signature
   contains the first seed of the "full" signature of the same key and message (`C40_full_violated`).  Keys are meant to be used with
   one parameter set, so this is a matter of missing robustness.
9. `sign_picnic1` returns without releasing anything when a simulation does not yield the public key: 10 T + 10 blocks (seeds, tapes and views of
   the secret key among them) are lost per call (`C42_sign_leak_violated`); `print_signature` and `print_signature2` lose the signature
   object when decoding fails (`C42_print_leak_violated`).
10. `picnic_sign` and `picnic_verify` test `sig == NULL` only after `allocateSignature(sig, ...)` has written through it, and no other
   allocation of the library is tested (`C43_alloc_violated`, `C43_never_reported_violated`).
11. The code after `Exit` in `verify_picnic3` releases the tapes even if they have not been set up (`C42_verify_exit_violated`); the two jumps that
   would reach it so are never taken, because the decoder has computed the lengths with the same functions (C14).
12. `verify` (picnic_impl.c:642-643, 669-671) keeps the output shares of the third party in a block of bytes with stride `stateSizeBytes` and writes
   them as words.  For Picnic_L1_full the stride is 17: the accesses are misaligned in every repetition whose number is not a multiple of 4, in
   every verification (`C46_verify_L1_full_violated`).
13. `picnic_validate_keypair` (picnic.c:614-616) passes `uint8_t ciphertext[32]` as `uint32_t*`: aligned only if the compiler happens to place the
   array so (`C46_validate_iff`).
14. `random_bytes_default` (picnic_impl.c:812-814) does not close the file after a short read (`C48_handles_violated`).  `random_bytes_supercop` (838-845) always returns 0; if `randombytes` stores nothing, key generation reports success with the secret key 0 (`C48_supercop_violated`, `C48_supercop_example`).
15. create_test_vectors.c prints the ciphertext as `pk_p` and the plaintext as `pk_C`, since `picnic_write_public_key` writes the ciphertext first
   (`C56_labels_violated`); its check of the length of the public key looks at `skSize` instead of `pkSize` (line 46, no effect); with Picnic3 it runs into
   finding 4 (`C56_p3_violated`).
16. Nothing is wiped before it is released: after every successful signature, the blocks given to `free` determine the secret key
   (`C57_zkb_violated`, `C57_p3_violated`).
17. Not modelled, noted while reading: byte buffers are accessed as `uint32_t*` (strict aliasing);
   one-leaf trees trip an assert (the library only uses 16, 250, 419 and 601 leaves);
   the Merkle parent hash includes the zero block of a non-existing right child with index below `numNodes`; padding bits of `input`
   (Picnic3) and of `communicatedBits` (ZKB++) are not checked by the decoders, but they are hashed; ZKB++ signing needs zero
   padding bits in the secret (ensured by keygen and the readers) for the signature to verify; `read_public_key` leaves trailing
   bytes of the arrays uninitialised (harmless by C31); `isChallengeValid` is what keeps the ZKB++ verifier in bounds.
18. **The secret key can be computed from a single Picnic3 signature.**  `createRandomTapes` (picnic3_impl.c:73-88) derives the tape of party j as
   SHAKE(seed ‖ salt ‖ t ‖ j), and `commit` (213-228) derives the commitment of party j ≠ 15 as SHAKE(seed ‖ salt ‖ t ‖ j), both without a prefix byte.
   So the commitment consists of the first 32, 48 or 64 bytes of the tape (`com_eq_tape`).  The commitment of the unopened party is part of the
   signature (line 855), and the mask of the key is a linear function of the first 129, 192 or 255 bits of the tapes.  The masked key is published as
   well.  One opened repetition whose unopened party is not the last one is enough (`C58_p3_violated`).  The same derivations are in section 7 of
   spec/spec-v3.0.pdf (steps 4(b) and 4(d)), so this is a fault of the specification and not of its translation to C.  A Python program outside this
   repository that follows `recoverKey` finds the secret keys of the test vectors kats/kat_picnic3_l1.txt, l3 and l5 from their signatures (a test,
   not a proof).  A different prefix byte in one of the two functions would remove the problem.

19. **Defects of the test programs.**  (a) tree_test.c:46-47,191: `iSeed` and `salt` have 16 bytes, but the tree functions read `seedSizeBytes` (16, 24, 32)
   and `saltSizeBytes` (32) bytes: every tree test reads outside its arrays (`C60_seed_violated`, `C60_merkle_violated`).  (b) unit_test.c:181-213: keys
   and plaintexts of 17 bytes are given to `LowMCEnc`, which copies whole words, 20 bytes (`C60_lowmc_violated`).  (c) tree_test.c:122,248 uses the bound
   `u*ceil_log2(T/u)` with a truncating division; the library uses `T/u` rounded up (picnic.c:354).  For 52 of 419 leaves (level 3) the bound of the
   test is 156, but 157 seeds can be necessary; for 68 of 601 leaves (level 5) it is 204, but 212 can be necessary.  So a random test can fail although
   the library is correct (`C60_seed_bound_violated`).  For 36 of 250 leaves the bound is sufficient (`C60_seed_pass`).

20. **Defects of the known-answer test (kats_test.c).**  (a) Lines 161-215: the buffer for the new signature has `sig_len + 5000` bytes, but `picnic_sign`
   wants `picnic_signature_size` bytes.  A correct vector of a ZKB++ parameter set with the Fiat-Shamir transform is refused when
   `bytes × (number of zero challenges) > 5000` (`C61_slack_violated`).  For level 5 (438 challenges, 32 bytes) this happens from 157 zeros on; 146 are
   expected, with standard deviation 9.9, so this concerns about one correct vector in seven (arithmetic, not a proof).  The shipped files have one
   vector each, and these fit.  (b) A line that is not part of the format ends the reading; after one good vector the result is still success
   (`C61_ignored_violated`).  (c) The length and the copy of the message in `sm` are not compared (`C61_header_violated`).  (d) If `smlen < 4 + mlen`
   the program computes a pointer outside the array `sm` (`C61_short_violated`).

21. **Too short input is recognised through an implementation-defined conversion.**  `outLen -= params->seedSizeBytes`, `inLen -= ...` and
   `intLen -= tree->dataSize` (tree.c:317, 345, 526) subtract an unsigned number from an `int`.  When the input is too short the difference wraps to a large
   unsigned number, whose conversion to `int` is implementation-defined (C11 6.3.1.3p3); with gcc and clang it is negative and the test `< 0` works
   (`C66_short`).  Not reached through the API: `deserializeSignature2` computes the lengths exactly.

22. **Arguments that share memory.**  picnic.h does not say which arguments may overlap.  Since `picnic_privatekey_t` contains the public key, a user
    may want `picnic_keygen(p, &sk.pk, &sk)`: every successful call then reaches `memcpy(&sk->pk, pk, sizeof(picnic_publickey_t))` (picnic.c) with equal
    arguments, which is undefined (`C72_keygen_same`; with common implementations of `memcpy` the result is right).  Writing a key over itself, and reading
    a public key over itself, is undefined too; `picnic_read_private_key` clears the key object before it copies, so that in-place decoding returns -1 and the
    encoded private key is lost (`C72_same_place`).  `picnic_sign` has no such restriction (`C72_sign`).

23. **Published signature sizes.**  Table 3 of the specification (spec-v3.0.pdf) gives 29750 bytes as the maximal length of a signature of parameter set 8
    (Picnic3-L3).  Signatures can be longer: 30104 bytes if every eighth repetition is opened (`C74_max_violated`), and this is the exact maximum (`C74_p3_max`).  The published
    average of parameter set 9 (46282) is 4.6 percent below the true one, 48500.9 (`C74_average_violated`).  The averages of sets 7 and 8 (12359, 27173) are 0.9
    percent too low (12465.1, 27412.5: `C74_p3_average`).  The buffers of the library are not concerned: `picnic_signature_size` is an upper bound (C05).  Callers
    who take buffer sizes from the table of the specification are concerned for set 8.  (The table also has 320161 in place of 32061 for set 10.)

24. **Strict aliasing.**  The arrays `plaintext`, `ciphertext`, `data` of the key structures (/repo/picnic.h:60-71) are declared as `uint8_t` and converted to
    `uint32_t*` in /repo/picnic.c:247-248, 286, 312, 410-411, 437-438, 616; `picnic_validate_keypair` also converts its local array `uint8_t ciphertext[]` (:614).
    Reading or writing an object declared as `uint8_t` array through `uint32_t` is undefined (C11 6.5p7).  It happens in every key generation, signature and
    verification if the caller's keys are variables, as in /repo/example.c (`C75_keys_violated`), and in every call of `picnic_validate_keypair`
    (`C75_validate_violated`).  The Makefile does not pass `-fno-strict-aliasing`.  With keys in allocated storage the other operations are fine (`C75_partial`).

25. **The variant `KeccakReference` of the SHA-3 code cannot be used by several threads** (and cannot be compiled as shipped: `displayIntermediateValues.h`, included in
    /repo/sha3/KeccakP-1600-reference.c:22, is missing).  Every start of a hash clears each round constant and sets its bits one by one in a static table
    (:54-67) that running permutations read; a hash computed meanwhile in another thread is wrong (`C76_threads_violated`).  The offsets (:69-83) are always
    overwritten with the same values.  The default build has constant tables and is not affected.

26. **On 32-bit machines only `length mod 2^29` bytes of a message are signed.**  `HashUpdate` (/repo/hash.c:23) passes `byteLen * 8` in a `size_t`
    (/repo/sha3/KeccakHash.h:28), which wraps around from 512 MB on, without an error.  A signature on any message `m` shorter than 512 MB is accepted for
    `m ++ more` with any 2^29 bytes `more` (`C77_violated`), all messages of exactly 2^29 bytes share the signatures of the empty message
    (`C77_example`).  The project files for Visual Studio have Win32 configurations; such a message fits into the address space.

## 4. Trusted base

* The Lean kernel.  Every theorem depends at most on `propext`, `Classical.choice`, `Quot.sound` (checked with `#print axioms` for
  every theorem named in MANIFEST.json).  No axioms, `sorry`, `native_decide`, `bv_decide`, `implemented_by`.
* The hand translation C → Lean (comments cite lines), with these simplifications: malloc/calloc never fail (except in Model/Heap); little-endian
  machine with 32-bit `int` and 64-bit `size_t` (except Model/Endian: byte order, Model/Bits32: 32-bit `size_t`); strict aliasing is in a separate model (Model/Alias), arguments are separate objects (except in Model/Overlap), alignment is in a separate model (Model/Align: translated by hand, word accesses only); object lifetimes (malloc,
  free) are in a separate model (Model/Heap) whose link to the first one is the reader's: all outcomes of branches are covered, the two jumps of
  finding 11 aside; loop counters and sizes bounded by the parameter table are natural numbers
  (C66 shows for a separate list of the expressions, with their C types, that nothing overflows; that the list is complete and the ranges of variables are
  right is the reader's check);
  fixed-width wrap-around is modelled where arguments are not bounded (sponge block arithmetic, bit length, `nlz`, `ceil_log2`,
  `bitsToChunks`); scratch memory reused between repetitions has arbitrary contents at the start of each repetition; the contents of
  `FILE*` output is a list of items (Model/Print).
* Modelled: all of picnic.c, picnic_impl.c, picnic3_impl.c, picnic_types.c (as allocation sizes), tree.c, hash.c, and the sponge and
  permutation of sha3/, including what Picnic does not call (Model/Sha3).  Further `random_bytes_default` (Linux and Windows), `random_bytes_supercop`, example.c (Model/Cycle, Model/RandomOther; elsewhere the
  random source is an arbitrary function), create_test_vectors.c (Model/Vectors), kats_test.c (Model/Kats), and unit_test.c and tree_test.c (Model/Tests) except for
  `printNewKeypair`, the constants of the test vectors and the `main` functions.  Not modelled: debugging output.
* C68 counts observations (Spec/Work): arithmetic on local variables between two of them is bounded by the source text, but its duration, and that of `malloc`, `calloc` and `free`, is not modelled; a loop that the code leaves early counts one test for each iteration that is left out.
* The observer of C45 is the one of Model/Leak: branches and addresses of the C source.  Not seen: durations of arithmetic instructions,
  the position at which `memcmp` stops (relevant only to `picnic_validate_keypair` and to `sign` with a key that does not match its public key),
  which array an index belongs to (fixed at each point of the program), what a compiler does.  Loops that the first model fuses are fused here
  too, so the order of observations in the preprocessing of Picnic3 is that of the model.  Functions that see public data only (verify, public
  keys, printing) have no such twin.
* SHAKE is a concrete function in the model; no cryptographic assumption is used.  Security-flavoured properties (C18, C19, C28) conclude
  "or an explicit collision"; C20 and C41 treat tapes as free inputs; C62, C63, C64, C65 and C67 replace SHAKE by a table that is chosen at random.

### Fidelity test (outside of the proofs)

The model (compiled Lean, not the C code) was run on the known-answer tests of `/repo/kats` with LowMC constants generated as described in
the specification.  For picnic_L1_FS, L1_UR, L1_full, L3_full, Picnic3_L1, Picnic3_L3 the bytes of the model's signature are equal to the
expected bytes, verification returns 0, and -1 after a byte is changed.  For picnic_L3_FS, L3_UR, L5_full and Picnic3_L5 the
bytes of the signature are equal to the expected bytes and verification returns 0.  L5_FS and L5_UR were not run.
This is a test of the translation, not a proof.

## 5. Mutation tests

`seeded/LOG.jsonl` records edits of the model as a realistic bug would make them (in a scratch copy), and which theorems failed.

How to read it: `failed_lemmas` are the declarations at which the build reported errors. Lake stops at the first failing module, so
`failed_theorems` is derived: it lists the theorems of MANIFEST.json whose proof term (in the unedited project) uses one of these lemmas and
which therefore cannot be checked any more. A broken proof script is not by itself a refutation of the claim; edits that keep the claim true
are marked as such in `claim` or `note`. Edits marked as repairs of the code are there to see that the theorems about violations fail
when the defect is removed.

Survivors: one (`parityWords`, a function nothing in the library calls) showed a missing theorem and led to `C36_parity`.  In the others the
edit changes nothing that can be observed: `Ints.gFn`, `Ints.matrixMul`, `Ints.substitution` (a smaller integer type in which the largest value
still fits), `PublicKey.zero`, `PrivateKey.zero` (a field that is overwritten at once), `createTestVectors` (repair of a test that is never true
for the sizes that occur).  The reason is in the `note` of the entry.
