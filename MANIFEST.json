{
 "claims": [
  {
   "property": "C01",
   "status": "proved",
   "theorems": [
    "Picnic.C01_sign_verify",
    "Picnic.zkb_example"
   ],
   "note": "ZKB++ sign then verify, all nine ZKB++ parameter sets"
  },
  {
   "property": "C02",
   "status": "proved",
   "theorems": [
    "Picnic.C02_sign_verify",
    "Picnic.p3_example"
   ],
   "note": "Picnic3 sign then verify, all three parameter sets, every opened/unopened choice, any uninitialised memory; p3_example meets the hypotheses"
  },
  {
   "property": "C03",
   "status": "proved",
   "theorems": [
    "Picnic.C03_zkb",
    "Picnic.C03_p3",
    "Picnic.zkb_example",
    "Picnic.p3_example"
   ],
   "note": "All parameter sets (C03_zkb, C03_p3)"
  },
  {
   "property": "C04",
   "status": "proved",
   "theorems": [
    "Picnic.C04_max_sizes",
    "Picnic.C04_signature_sizes",
    "Picnic.C04_invalid_params"
   ],
   "note": "picnic_signature_size <= PICNIC_MAX_SIGNATURE_SIZE, key size bounds, exact values per parameter set; invalid values give PICNIC_MAX_SIGNATURE_SIZE"
  },
  {
   "property": "C05",
   "status": "proved",
   "theorems": [
    "Picnic.C05_zkb",
    "Picnic.C05_p3",
    "Picnic.zkb_example",
    "Picnic.p3_example"
   ],
   "note": "All parameter sets (C05_zkb, C05_p3)"
  },
  {
   "property": "C06",
   "status": "proved",
   "theorems": [
    "Picnic.C06_length"
   ],
   "note": "exact ZKB++ signature lengths"
  },
  {
   "property": "C07",
   "status": "proved",
   "theorems": [
    "Picnic.C07_keygen",
    "Picnic.C07_keygen_error"
   ],
   "note": "keygen result for all outputs and failures of the random source"
  },
  {
   "property": "C08",
   "status": "proved",
   "theorems": [
    "Picnic.C08_validate",
    "Picnic.C08_unused_bytes"
   ],
   "note": "validate_keypair decides the LowMC relation"
  },
  {
   "property": "C09",
   "status": "partial",
   "theorems": [
    "Picnic.C09_null_private_key_partial",
    "Picnic.C09_null_public_key_violated"
   ],
   "note": "false for a NULL public key (negation proved); NULL private key answered with -1"
  },
  {
   "property": "C10",
   "status": "proved",
   "theorems": [
    "Picnic.C10_write_read",
    "Picnic.C10_read_write"
   ],
   "note": ""
  },
  {
   "property": "C11",
   "status": "proved",
   "theorems": [
    "Picnic.C11_write_read",
    "Picnic.C11_read_write"
   ],
   "note": ""
  },
  {
   "property": "C12",
   "status": "proved",
   "theorems": [
    "Picnic.C12_read_public_key",
    "Picnic.C12_read_private_key",
    "Picnic.C12_null",
    "Picnic.C12_write_public_key",
    "Picnic.C12_write_private_key"
   ],
   "note": ""
  },
  {
   "property": "C13",
   "status": "partial",
   "theorems": [
    "Picnic.C13_zkb_partial",
    "Picnic.C13_zkb_exact",
    "Picnic.C13_print_exact",
    "Picnic.C13_p3",
    "Picnic.C13_ur_violated",
    "Picnic.C13_print_partial",
    "Picnic.C13_zkb_exact_example",
    "Picnic.zkb_verify_example",
    "Picnic.p3_example"
   ],
   "note": "Holds for Picnic3 verification (C13_p3); violated for ZKB++ with the Unruh transform (C13_ur_violated). For all ZKB++ sets the byte strings that make verification or printing read past the end are characterised exactly (C13_zkb_exact, C13_print_exact; Spec/Layout Overrun): only UR sets, only byte strings that miss between 1 and z·⌈n/8⌉ bytes."
  },
  {
   "property": "C14",
   "status": "proved",
   "theorems": [
    "Picnic.C14_zkb_fs",
    "Picnic.C14_p3",
    "Picnic.C13_zkb_exact",
    "Picnic.zkb_verify_example",
    "Picnic.p3_example"
   ],
   "note": "FS and full ZKB++ parameter sets and Picnic3, and UR except exactly where C13 fails (C13_zkb_exact); not terminating is a possible outcome only if the rejection sampling does not finish, excluded by a hypothesis on the digest chain"
  },
  {
   "property": "C15",
   "status": "partial",
   "theorems": [
    "Picnic.C15_p3",
    "Picnic.C15_zkb_violated",
    "Picnic.zkb_verify_example",
    "Picnic.p3_example"
   ],
   "note": "Holds for Picnic3 (C15_p3), false for ZKB++ (C15_zkb_violated)"
  },
  {
   "property": "C16",
   "status": "partial",
   "theorems": [
    "Picnic.C16_zkb_reencode",
    "Picnic.C16_zkb_inj_partial",
    "Picnic.C16_zkb_violated",
    "Picnic.C16_zkb_sign",
    "Picnic.C16_p3_reencode",
    "Picnic.C16_p3_inj",
    "Picnic.C16_p3_sign",
    "Picnic.p3_example"
   ],
   "note": "Proved in full for Picnic3; for ZKB++ re-encoding and sign-bytes-decode proved, injectivity false for trailing bytes (proved)"
  },
  {
   "property": "C17",
   "status": "proved",
   "theorems": [
    "Picnic.C17_zkb_sign",
    "Picnic.C17_zkb_verify",
    "Picnic.C17_p3_sign",
    "Picnic.C17_p3_verify",
    "Picnic.C31_zkb_sign",
    "Picnic.C31_zkb_verify",
    "Picnic.C31_p3_sign",
    "Picnic.C31_p3_verify",
    "Picnic.zkb_example",
    "Picnic.zkb_verify_example",
    "Picnic.p3_example"
   ],
   "note": "Signing and verification, all parameter sets; independence of the iteration limit is the fuel part of C31_*"
  },
  {
   "property": "C18",
   "status": "proved",
   "theorems": [
    "Picnic.C18_zkb",
    "Picnic.C18_p3",
    "Picnic.challengeInput_unique",
    "Picnic.challengeInput3_unique",
    "Picnic.zkb_verify_example",
    "Picnic.p3_example"
   ],
   "note": "All parameter sets; the two hash inputs are explicit (ChallengeInput, ChallengeInput3), unique, and differ unless the pairs agree. UR: signatures of at least picnic_signature_size bytes (shorter ones read out of bounds, C13)"
  },
  {
   "property": "C19",
   "status": "proved",
   "theorems": [
    "Picnic.C19_consistent",
    "Picnic.C19_round",
    "Picnic.C19_zkb",
    "Picnic.C19_round_example"
   ],
   "note": "Special soundness of one ZKB++ repetition. C19_consistent: pairwise consistent views (specification level). C19_round: three signatures whose verifier computation gives equal commitments and outputs for challenges 0,1,2. C19_zkb: three accepted byte strings with the same challenge-hash front. Conclusion: the XOR of the input shares satisfies the LowMC relation, or an explicit collision of the commitment (or seed) hash. C19_round_example shows three honest openings for every key pair."
  },
  {
   "property": "C20",
   "status": "proved",
   "theorems": [
    "Picnic.C20_privacy",
    "Picnic.C20_simulator",
    "Picnic.C20_distribution",
    "Picnic.C20_total",
    "Picnic.C20_sign",
    "Picnic.C20_example",
    "Picnic.C20_simulator_example"
   ],
   "note": "C20_simulator: for uniform shares and tapes the data opened in all repetitions together (for any fixed challenges) is distributed exactly as the output of a simulator that does not get the secret key; C20_distribution: hence equally for all keys of a public key. C20_sign: what picnic_sign publishes is this computation on the shares and tapes derived from the seeds, plus hashes of the hidden seed and view. C20_privacy: the key share and tape of the hidden party are unique. Tapes are treated as free inputs (their derivation from seeds by SHAKE is a computational assumption)."
  },
  {
   "property": "C21",
   "status": "proved",
   "theorems": [
    "Picnic.C21_online",
    "Picnic.C21_sign",
    "Picnic.p3_example"
   ],
   "note": "C21_online: preprocessing and online phase for arbitrary tapes; C21_sign: picnic_sign fails exactly on mismatching keys"
  },
  {
   "property": "C22",
   "status": "proved",
   "theorems": [
    "Picnic.C22_mpc",
    "Picnic.C22_mismatch"
   ],
   "note": "ZKB++ MPC against share-level specification"
  },
  {
   "property": "C23",
   "status": "proved",
   "theorems": [
    "Picnic.C23_incremental"
   ],
   "note": "against FIPS 202 on bit strings, including the permutation"
  },
  {
   "property": "C24",
   "status": "partial",
   "theorems": [
    "Picnic.C24_update_partial",
    "Picnic.C24_sign_overflow_violated",
    "Picnic.C24_sign_diverges_violated",
    "Picnic.C24_huge_update_ignored"
   ],
   "note": "false from 2^32-32 bytes on (negations proved); holds up to 2^32-200 bytes"
  },
  {
   "property": "C25",
   "status": "proved",
   "theorems": [
    "Picnic.C25_keccak"
   ],
   "note": "against the bitwise definition of FIPS 202"
  },
  {
   "property": "C26",
   "status": "proved",
   "theorems": [
    "Picnic.C26_tree",
    "Picnic.C26_seed_tree",
    "Picnic.C26_example"
   ],
   "note": "All trees with at least two leaves (a one-leaf tree trips an assert in the code; the library only uses 16, 250, 419 and 601 leaves) whose opening fits an int; every non-empty hidden list, duplicates allowed. C26_tree pins the tree to the PRG specification."
  },
  {
   "property": "C27",
   "status": "proved",
   "theorems": [
    "Picnic.C27_tree",
    "Picnic.C27_merkle_complete",
    "Picnic.C27_example"
   ],
   "note": "Merkle completeness for every tree size 2..2^32 leaves, every missing list shorter than the leaf count (duplicates allowed); C27_tree pins every node value of the built tree."
  },
  {
   "property": "C28",
   "status": "proved",
   "theorems": [
    "Picnic.C28_merkle_binding",
    "Picnic.C28_example"
   ],
   "note": "Either every supplied leaf equals the committed one or two different H_3 inputs with equal digest are exhibited at an inner node; also for a different salt and arbitrary opening bytes."
  },
  {
   "property": "C29",
   "status": "proved",
   "theorems": [
    "Picnic.C29_general",
    "Picnic.C29_opening_sizes",
    "Picnic.C29_example"
   ],
   "note": "General bound for every tree and the published formula for the three Picnic3 parameter sets, all subsets; hiding one of 16 leaves reveals exactly 4 seeds (exhaustive over the 16 leaves, which is the whole domain)."
  },
  {
   "property": "C30",
   "status": "proved",
   "theorems": [
    "Picnic.C30_enc_spec",
    "Picnic.C30_permutation",
    "Picnic.C30_sbox_table"
   ],
   "note": "for all LowMC tables of the right sizes; injectivity given invertible linear layers"
  },
  {
   "property": "C31",
   "status": "proved",
   "theorems": [
    "Picnic.C31_zkb_sign",
    "Picnic.C31_zkb_verify",
    "Picnic.C31_p3_sign",
    "Picnic.C31_p3_verify",
    "Picnic.zkb_example",
    "Picnic.zkb_verify_example",
    "Picnic.p3_example"
   ],
   "note": "Signing and verification, all parameter sets, all byte strings"
  },
  {
   "property": "C32",
   "status": "proved",
   "theorems": [
    "Picnic.C32_seed_input",
    "Picnic.C32_p3_seed_input",
    "Picnic.C31_zkb_sign",
    "Picnic.C31_p3_sign"
   ],
   "note": ""
  },
  {
   "property": "C33",
   "status": "partial",
   "theorems": [
    "Picnic.C33_zkb",
    "Picnic.C33_p3_violated",
    "Picnic.C33_p3_partial",
    "Picnic.C33_invalid",
    "Picnic.print_example"
   ],
   "note": "Holds for ZKB++ (printing an accepted signature is memory safe and shows its bytes in order); false for Picnic3: printing any accepted signature reads past the end of msgs"
  },
  {
   "property": "C34",
   "status": "proved",
   "theorems": [
    "Picnic.C34_param_names"
   ],
   "note": ""
  },
  {
   "property": "C35",
   "status": "partial",
   "theorems": [
    "Picnic.C35_violated",
    "Picnic.C35_partial",
    "Picnic.C35_hashedInt",
    "Picnic.expandChallengeHashE_le",
    "Picnic.endian_example"
   ],
   "note": "Violated on big endian machines (the expansion never terminates); holds on little endian machines, and HashUpdateIntLE hashes the same bytes on both"
  },
  {
   "property": "C36",
   "status": "proved",
   "theorems": [
    "Picnic.C36_numBytes",
    "Picnic.C36_ceil_log2",
    "Picnic.C36_nlz",
    "Picnic.C36_bits",
    "Picnic.C36_bits_oob",
    "Picnic.C36_getBit",
    "Picnic.C36_parity32",
    "Picnic.C36_parity16",
    "Picnic.C36_parity",
    "Picnic.C36_extend",
    "Picnic.C36_xor_array",
    "Picnic.C36_xor_three",
    "Picnic.C36_zeroTrailingBits",
    "Picnic.C36_arePaddingBitsZero"
   ],
   "note": "parity (unused by the library) was added after a mutation test"
  },
  {
   "property": "C37",
   "status": "proved",
   "theorems": [
    "Picnic.C37_sign",
    "Picnic.C37_sign_complete",
    "Picnic.C37_verify_sound",
    "Picnic.C37_verify_complete",
    "Picnic.C37_verify_reject"
   ],
   "note": "Verif/Spec/Picnic1.lean states the ZKB++ scheme (parameter table, tapes, views, commitments, challenge, encoding) without reference to the model. The LowMC matrices and constants are those of the environment. Verification is an iff up to trailing bytes (see C15) and up to the number of digests the sampling loop may use."
  },
  {
   "property": "C38",
   "status": "proved",
   "theorems": [
    "Picnic.C38_sign",
    "Picnic.C38_sign_complete",
    "Picnic.C38_verify_sound",
    "Picnic.C38_verify_complete",
    "Picnic.C38_verify_reject"
   ],
   "note": "sign and verify refine the declarative specification of the Picnic3 scheme, Spec/Picnic3; example p3_conform_example"
  },
  {
   "property": "C39",
   "status": "proved",
   "theorems": [
    "Picnic.C39_extract",
    "Picnic.C39_p3",
    "Picnic.C39_example"
   ],
   "note": "C39_extract is about transcripts of the specified protocol; C39_p3 lifts it to byte strings accepted by picnic_verify. C39_example gives transcripts that meet the hypotheses and have no collision."
  },
  {
   "property": "C40",
   "status": "partial",
   "theorems": [
    "Picnic.C40_partial",
    "Picnic.C40_unruh_violated",
    "Picnic.C40_full_violated",
    "Picnic.C40_example"
   ],
   "note": "Holds only for parameter sets with different block lengths (C40_partial: the hashed strings differ). C40_unruh_violated and C40_full_violated show key recovery otherwise; C40_example is a concrete case."
  },
  {
   "property": "C41",
   "status": "proved",
   "theorems": [
    "Picnic.C41_privacy",
    "Picnic.C41_joint",
    "Picnic.C41_accepted",
    "Picnic.C41_uniform",
    "Picnic.C41_sign",
    "Picnic.C41_verify",
    "Picnic.C41_example"
   ],
   "note": "For any two keys of a public key an explicit bijection of the hidden tapes gives equality of distributions, for one repetition (C41_privacy) and for all opened repetitions together (C41_joint); C41_accepted and C41_uniform identify the distribution as the uniform one on the data that the verifier accepts; C41_sign and C41_verify connect both with sign_picnic3 and verify_picnic3; C41_example has two different keys. Tapes are uniform in the statement (SHAKE outputs in the code)."
  },
  {
   "property": "C42",
   "status": "partial",
   "theorems": [
    "Picnic.C42_sign_p3",
    "Picnic.C42_verify_zkb",
    "Picnic.C42_verify_p3",
    "Picnic.C42_verify_exit_violated",
    "Picnic.C42_sign_zkb_partial",
    "Picnic.C42_sign_leak_violated",
    "Picnic.C42_print_partial",
    "Picnic.C42_print_leak_violated"
   ],
   "note": "Balanced for all branches: Picnic3 signing, both verifications, ZKB++ signing with consistent keys, printing of decodable signatures. Violated on two error paths, with the exact number of lost blocks for signing. Contents of buffers and bounds are in the other model."
  },
  {
   "property": "C43",
   "status": "partial",
   "theorems": [
    "Picnic.C43_alloc_violated",
    "Picnic.C43_never_reported_violated"
   ],
   "note": "Violated: a failing first allocation is a NULL dereference in all four functions (C43_alloc_violated), and for every other pattern of failures no failure is ever reported: with good inputs the functions never return the error code (C43_never_reported_violated)."
  },
  {
   "property": "C44",
   "status": "proved",
   "theorems": [
    "Picnic.C44_zkb",
    "Picnic.C44_zkb_level",
    "Picnic.C44_zkb_rate",
    "Picnic.C44_zkb_verify",
    "Picnic.C44_p3",
    "Picnic.C44_p3_level",
    "Picnic.C44_p3_rate",
    "Picnic.C44_p3_verify"
   ],
   "note": "Combinatorial soundness error for a fixed first message and a set of hashed strings without collisions, with the numbers of all parameter sets; the link to accepted signatures is by C37 and C38. The random-oracle assumption itself is outside the model."
  },
  {
   "property": "C45",
   "status": "proved",
   "theorems": [
    "Picnic.C45_same_results",
    "Picnic.C45_sign_zkb",
    "Picnic.C45_sign_picnic3",
    "Picnic.C45_keygen",
    "Picnic.C45_write",
    "Picnic.C45_read",
    "Picnic.C45_validate",
    "Picnic.C45_permutation"
   ],
   "note": "Model/Leak*: the functions of the model with observations; same results (C45_same_results). One simulator for all keys, messages and permutations; it receives lengths and the chain of challenge digests only. Observations are those of the C source: branch outcomes, loop bounds, indices, block offsets and lengths; instruction timing, the position at which memcmp stops, and what a compiler makes of the source are outside the model."
  },
  {
   "property": "C46",
   "status": "partial",
   "theorems": [
    "Picnic.C46_sizes",
    "Picnic.C46_keygen_sign_partial",
    "Picnic.C46_verify_partial",
    "Picnic.C46_verify_L1_full_violated",
    "Picnic.C46_validate_iff"
   ],
   "note": "Aligned for keygen and sign (all parameter sets) and verify (all but Picnic_L1_full), for every placement of objects. The code violates the property: verify with Picnic_L1_full accesses words at stride 17 (C46_verify_L1_full_violated); picnic_validate_keypair casts a byte array (C46_validate_iff: aligned iff the array happens to be)."
  },
  {
   "property": "C47",
   "status": "proved",
   "theorems": [
    "Picnic.C47_life_cycle",
    "Picnic.C47_zkb",
    "Picnic.C47_picnic3",
    "Picnic.C47_no_keys",
    "Picnic.C47_example"
   ],
   "note": "example.c translated as a whole; every step succeeds or signing diverges; terminates if the challenge sampler does; C47_example: runs in a concrete environment for all twelve parameter sets."
  },
  {
   "property": "C48",
   "status": "partial",
   "theorems": [
    "Picnic.C48_random_bytes",
    "Picnic.C48_handles_partial",
    "Picnic.C48_handles_violated",
    "Picnic.C48_keygen",
    "Picnic.C48_windows",
    "Picnic.C48_windows_keygen",
    "Picnic.C48_supercop_violated"
   ],
   "note": "Return values, buffer contents and key generation proved for all answers of the operating system. The claim about open files is violated: a short read leaves the file open (C48_handles_violated gives the exact number). The Windows variant is proved; the SUPERCOP variant cannot report a failure of randombytes (C48_supercop_violated: key generation then succeeds with a key that ends with zeros)."
  },
  {
   "property": "C49",
   "status": "proved",
   "theorems": [
    "Picnic.C49_hash",
    "Picnic.C49_oneshot",
    "Picnic.C49_arguments",
    "Picnic.C49_order",
    "Picnic.C49_permutation",
    "Picnic.C49_tables",
    "Picnic.C49_sha3",
    "Picnic.C49_shake",
    "Picnic.C49_known_answer",
    "Picnic.C49_bytes"
   ],
   "note": "Model/Sha3; every rate, suffix, bit length and chunking; byte order and round count of the permutation."
  },
  {
   "property": "C50",
   "status": "proved",
   "theorems": [
    "Picnic.C50_p3",
    "Picnic.C50_zkb",
    "Picnic.C50_spec_p3",
    "Picnic.C50_spec_zkb",
    "Picnic.C50_p3_example",
    "Picnic.C50_zkb_example"
   ],
   "note": "Two accepted signatures with the same challenge are equal, on the same message and key, or the strings hashed in the two verifications contain a collision (Spec/Binding); for ZKB++ up to trailing bytes, which the library ignores (C15)."
  },
  {
   "property": "C51",
   "status": "proved",
   "theorems": [
    "Picnic.C51_zkb",
    "Picnic.C51_p3",
    "Picnic.C51_zkb_verify",
    "Picnic.C51_p3_verify",
    "Picnic.C51_zkb_example",
    "Picnic.C51_p3_example"
   ],
   "note": "Spec/Forger: adaptive forgers; C51_zkb and C51_p3 bound the proportion of answer sequences on which a forger can answer a challenge without collision, preimage or secret key. The answers are independent and uniform, of any type from which challenges are read fairly (Fair; C52 shows it for digests); a question that is asked twice counts twice. C51_zkb_verify and C51_p3_verify connect accepted byte strings with it. That SHAKE behaves like a random function is not modelled. Examples: the bounded set is not empty (ZKB++); an honest signer answers all challenges (Picnic3)."
  },
  {
   "property": "C52",
   "status": "proved",
   "theorems": [
    "Picnic.C52_zkb",
    "Picnic.C52_p3",
    "Picnic.C52_chain_zkb",
    "Picnic.C52_chain_p3",
    "Picnic.C52_forge_zkb",
    "Picnic.C52_forge_p3",
    "Picnic.C53_zkb_example",
    "Picnic.C53_p3_example"
   ],
   "note": "Exact uniformity of the challenge read off uniformly random digest sequences, both schemes; link to the chained digests of the specification and to the bound of C51."
  },
  {
   "property": "C53",
   "status": "proved",
   "theorems": [
    "Picnic.C53_zkb",
    "Picnic.C53_p3",
    "Picnic.C53_share_zkb",
    "Picnic.C53_share_p3",
    "Picnic.C53_example",
    "Picnic.C53_zkb_example",
    "Picnic.C53_p3_example"
   ],
   "note": "Proportion of digest sequences that do not determine a challenge, both schemes; exact accounting of challenges and failures; failures exist."
  },
  {
   "property": "C54",
   "status": "proved",
   "theorems": [
    "Picnic.C54_plaintext",
    "Picnic.C54_ciphertext",
    "Picnic.C54_count",
    "Picnic.C54_example"
   ],
   "note": "Exact uniformity and independence of (secret key, plaintext) and, for invertible linear layers, of (secret key, ciphertext); C54_count gives the number of random strings for each pair."
  },
  {
   "property": "C55",
   "status": "proved",
   "theorems": [
    "Picnic.C55_read_sign",
    "Picnic.C55_example"
   ],
   "note": "Composition of reading, validation, signing and verification for arbitrary accepted byte strings, all parameter sets."
  },
  {
   "property": "C56",
   "status": "partial",
   "theorems": [
    "Picnic.C56_zkb_partial",
    "Picnic.C56_zkb_returns_partial",
    "Picnic.C56_no_keys",
    "Picnic.C56_labels_violated",
    "Picnic.C56_p3_violated",
    "Picnic.C56_p3_example"
   ],
   "note": "ZKB++: the items printed, the parts of the signature and normal return are proved for all random bytes; but the code shows the ciphertext as pk_p and the plaintext as pk_C (C56_labels_violated), and with Picnic3 every run in which signing succeeds reads past the end of a buffer in print_signature (C56_p3_violated)."
  },
  {
   "property": "C57",
   "status": "partial",
   "theorems": [
    "Picnic.C57_zkb_violated",
    "Picnic.C57_p3_violated",
    "Picnic.C57_example"
   ],
   "note": "Violated: proved that after every successful signature the released heap blocks determine the secret key, for ZKB++ (three input shares) and Picnic3 (masked key and tapes)."
  },
  {
   "property": "C58",
   "status": "partial",
   "theorems": [
    "Picnic.C58_p3_violated",
    "Picnic.C58_p3_forge",
    "Picnic.C58_exception",
    "Picnic.C58_example"
   ],
   "note": "Violated for Picnic3, in the code and in the specification: the commitment of the unopened party is the beginning of its random tape, and it is published. C58_p3_violated: an explicit procedure (Spec/Recover, using only the signature) returns the secret key for every successful signature unless all unopened parties are the last one; C58_exception: with random digests that happens in exactly one of 16^u cases; C58_p3_forge: the result signs every message; C58_example: instances for the three parameter sets in which the key is returned."
  },
  {
   "property": "C59",
   "status": "partial",
   "theorems": [
    "Picnic.C59_zkb",
    "Picnic.C59_zkb_secrets",
    "Picnic.C59_zkb_uses",
    "Picnic.C59_p3_partial",
    "Picnic.C59_p3_violated",
    "Picnic.C59_p3_uses",
    "Picnic.C59_example"
   ],
   "note": "ZKB++ proved: the string that is hashed determines purpose and data (C59_zkb), and everything in the specification that C37 connects with the code is hashed in this form (C59_zkb_uses). Picnic3: violated, tape and commitment of a party are hashes of the same string (C59_p3_violated); C59_p3_partial: there is no other exception. The derivation of seeds from the key is compared with itself only (C59_zkb_secrets)."
  },
  {
   "property": "C60",
   "status": "partial",
   "theorems": [
    "Picnic.C60_seed_violated",
    "Picnic.C60_merkle_violated",
    "Picnic.C60_seed_partial",
    "Picnic.C60_seed_pass",
    "Picnic.C60_seed_bound_violated",
    "Picnic.C60_merkle_pass",
    "Picnic.C60_lowmc_violated",
    "Picnic.C60_lowmc_partial",
    "Picnic.C60_serialization",
    "Picnic.C60_roundtrip",
    "Picnic.C60_sig_serialize",
    "Picnic.C60_vectors",
    "Picnic.C60_modified"
   ],
   "note": "Violated by the code: the tree tests and the 129-bit LowMC tests read outside their arrays; the bound of the seed test is wrong for levels 3 and 5. Proved with arrays of the right sizes; the other tests are proved as they are."
  },
  {
   "property": "C61",
   "status": "partial",
   "theorems": [
    "Picnic.C61_vector",
    "Picnic.C61_accepted",
    "Picnic.C61_slack_violated",
    "Picnic.C61_zero_vectors",
    "Picnic.C61_sizes",
    "Picnic.C61_file",
    "Picnic.C61_ignored_violated",
    "Picnic.C61_header_violated",
    "Picnic.C61_short_violated",
    "Picnic.C61_main"
   ],
   "note": "The program refuses correct vectors (buffer only 5000 bytes larger than the signature), ignores damaged lines after the first vector and the copy of the message, and leaves its array for a short sm: proved as *_violated. The remaining statement is proved: what is accepted, which vectors pass, result for files in the format and of the program."
  },
  {
   "property": "C62",
   "status": "proved",
   "theorems": [
    "Picnic.C62_simulator",
    "Picnic.C62_adversary",
    "Picnic.C62_recover",
    "Picnic.C62_many",
    "Picnic.C62_many_recover",
    "Picnic.C62_library",
    "Picnic.C62_chosen",
    "Picnic.C62_chosen_recover"
   ],
   "note": "With a random oracle in place of SHAKE; one signature, the signatures of k messages fixed beforehand, or of k messages chosen adaptively. C62_library links the signer of the statement with picnic_sign."
  },
  {
   "property": "C63",
   "status": "proved",
   "theorems": [
    "Picnic.C63_forge",
    "Picnic.C63_candidates",
    "Picnic.C63_small",
    "Picnic.C63_library",
    "Picnic.C63_many",
    "Picnic.C63_many_candidates",
    "Picnic.C63_chosen",
    "Picnic.C63_chosen_candidates"
   ],
   "note": "Random-oracle model: every adaptive forger's questions contain a fitting secret key, up to an explicit bound, also when it is given the signatures of k messages, fixed beforehand or chosen adaptively (exactly k different messages); the valid signatures are those picnic_verify accepts"
  },
  {
   "property": "C64",
   "status": "proved",
   "theorems": [
    "Picnic.C64_forge",
    "Picnic.C64_candidates",
    "Picnic.C64_small",
    "Picnic.C64_library"
   ],
   "note": "random oracle in place of SHAKE; forgers that know only the public key"
  },
  {
   "property": "C65",
   "status": "proved",
   "theorems": [
    "Picnic.C65_strong",
    "Picnic.C65_signed",
    "Picnic.C65_other_message",
    "Picnic.C65_library"
   ],
   "note": "Random-oracle model; exactly k different messages are signed (a repeated message gives the same signature, the signer is deterministic); trailing bytes after a signature are ignored by picnic_verify, see C65_library"
  },
  {
   "property": "C66",
   "status": "proved",
   "theorems": [
    "Picnic.C66_exact",
    "Picnic.C66_ranges",
    "Picnic.C66_signature_size",
    "Picnic.C66_serialize",
    "Picnic.C66_tree",
    "Picnic.C66_short",
    "Picnic.C66_wrong"
   ],
   "note": "Ranges of objects that are not loop counters are stated at the expression with the reason; pointer arithmetic and the Keccak code are modelled elsewhere; the short-input branches of tree.c are not reached (C66_short)"
  },
  {
   "property": "C67",
   "status": "proved",
   "theorems": [
    "Picnic.C67_oneway",
    "Picnic.C67_numbers",
    "Picnic.C67_keys",
    "Picnic.C67_inverter",
    "Picnic.C67_example",
    "Picnic.C67_p3_oneway",
    "Picnic.C67_p3_example"
   ],
   "note": "Average over generated keys of C65 (ZKB++, adaptively chosen messages, strong unforgeability) and of C64 (Picnic3, no signatures), with an explicit inverter; its running time is not modelled."
  },
  {
   "property": "C68",
   "status": "proved",
   "theorems": [
    "Picnic.C68_verify_work",
    "Picnic.C68_numbers"
   ],
   "note": "steps and permutations counted in the observation model of verification (same results as the model); bound per parameter set, linear in message length and number of rehashes, independent of the signature"
  },
  {
   "property": "C69",
   "status": "proved",
   "theorems": [
    "Picnic.C69_untouched",
    "Picnic.C69_leftover",
    "Picnic.C69_unusable"
   ],
   "note": "A random source that fails is taken to leave its buffer as it is; C69_unusable assumes that LowMC under the leftover secret does not map zero to zero (tables not in the repository), shown satisfiable by an example."
  },
  {
   "property": "C70",
   "status": "proved",
   "theorems": [
    "Picnic.C70_sign_work",
    "Picnic.C70_keygen_work",
    "Picnic.C70_validate_work",
    "Picnic.C70_example",
    "Picnic.C70_numbers"
   ],
   "note": "Steps and permutations as counted in Spec/Work; the allocator and the random source are not counted; E.fuel is the number of rehashes granted."
  },
  {
   "property": "C71",
   "status": "proved",
   "theorems": [
    "Picnic.C71_zkb",
    "Picnic.C71_p3",
    "Picnic.C71_example",
    "Picnic.C71_measured"
   ],
   "note": "heap memory; sizes of structures on 64-bit machines; stack and allocator overhead not counted"
  },
  {
   "property": "C72",
   "status": "proved",
   "theorems": [
    "Picnic.C72_sign",
    "Picnic.C72_in_place",
    "Picnic.C72_keygen",
    "Picnic.C72_keys",
    "Picnic.C72_keygen_same",
    "Picnic.C72_same_place",
    "Picnic.C72_example"
   ],
   "note": "All overlaps of signature, message and key in picnic_sign; key functions with separate objects, and the conditions shown to be necessary. Frame: only outputs change."
  },
  {
   "property": "C73",
   "status": "proved",
   "theorems": [
    "Picnic.C73_zkb",
    "Picnic.C73_p3",
    "Picnic.C73_mixed",
    "Picnic.C73_zkb_example",
    "Picnic.C73_p3_example",
    "Picnic.C73_mixed_example"
   ],
   "note": "All pairs of different parameter sets, messages of equal length; conclusion: explicit coincidence of hash values of different strings."
  },
  {
   "property": "C74",
   "status": "partial",
   "theorems": [
    "Picnic.C74_zkb_length",
    "Picnic.C74_zkb_average",
    "Picnic.C74_zkb_example",
    "Picnic.C74_p3_length",
    "Picnic.C74_p3_average",
    "Picnic.C74_p3_average_partial",
    "Picnic.C74_average_violated",
    "Picnic.C74_p3_max",
    "Picnic.C74_p3_max_partial",
    "Picnic.C74_max_violated"
   ],
   "note": "Length of every signature as a function of the challenge, exact averages and maxima over all challenges; the published table holds for the ZKB++ sets, the maximum for sets 7 and 9, the averages (within one percent) for sets 7 and 8. Violated: maximum of set 8 (signature of 30104 > 29750 bytes) and average of set 9 (more than four percent too low)."
  },
  {
   "property": "C75",
   "status": "partial",
   "theorems": [
    "Picnic.C75_partial",
    "Picnic.C75_keys_violated",
    "Picnic.C75_validate_violated",
    "Picnic.C75_example"
   ],
   "note": "All word and pointer accesses (model of C46 with sizes and declared types of the objects): type safe for key generation, signing and verification if the keys are in allocated storage. Violated if the keys are variables, and always by picnic_validate_keypair. Types carried by memcpy are not modelled."
  },
  {
   "property": "C76",
   "status": "partial",
   "theorems": [
    "Picnic.C76_partial",
    "Picnic.C76_threads_partial",
    "Picnic.C76_threads_violated",
    "Picnic.C76_window",
    "Picnic.C76_example"
   ],
   "note": "Violated with several threads (in the KeccakReference variant only, which the Makefile does not build): C76_threads_violated. Proved: one thread, and every schedule in which no other thread works on the constant of the current round."
  },
  {
   "property": "C77",
   "status": "partial",
   "theorems": [
    "Picnic.C77_sign",
    "Picnic.C77_verify",
    "Picnic.C77_partial",
    "Picnic.C77_transfer",
    "Picnic.C77_violated",
    "Picnic.C77_ints",
    "Picnic.C77_example"
   ],
   "note": "Messages shorter than 2^29 bytes: same as on a 64-bit machine.  Violated for longer messages: only length mod 2^29 bytes are hashed, so signatures transfer to other messages (C77_violated)."
  },
  {
   "property": "C78",
   "status": "proved",
   "theorems": [
    "Picnic.C78_tables",
    "Picnic.C78_sign_verify",
    "Picnic.C78_kats",
    "Picnic.C78_permutation",
    "Picnic.C78_example",
    "Picnic.C78_generated",
    "Picnic.C78_unique",
    "Picnic.C78_sequences"
   ],
   "note": "The constants are numbers in Model/LowMCTables (lowmc_constants.c is not in /repo); C78_generated proves that they are the ones the generator of the specification makes."
  },
  {
   "property": "C79",
   "status": "proved",
   "theorems": [
    "Picnic.C79_env",
    "Picnic.C79_life_cycle",
    "Picnic.C79_sign_verify_zkb",
    "Picnic.C79_sign_verify_p3",
    "Picnic.C79_permutation",
    "Picnic.C79_kats",
    "Picnic.C79_example",
    "Picnic.C79_generated",
    "Picnic.C79_unique",
    "Picnic.C79_round_keys"
   ],
   "note": "Uninitialised memory and the bound of the challenge search stay arbitrary. C79_generated proves that the constants of all parameter sets are those of the generator in the specification."
  },
  {
   "property": "C80",
   "status": "proved",
   "theorems": [
    "Picnic.C80_zkb",
    "Picnic.C80_p3",
    "Picnic.C80_unique_zkb",
    "Picnic.C80_unique_p3",
    "Picnic.C80_exists_zkb",
    "Picnic.C80_exists_p3",
    "Picnic.C80_example_zkb",
    "Picnic.C80_example_p3",
    "Picnic.C80_keygen",
    "Picnic.C80_validate",
    "Picnic.C80_exists_lowmc"
   ],
   "note": "The instance of the specification is fixed without the library (Spec/Standard: SHAKE of FIPS 202, LowMC of the generator); the library signs and verifies exactly as it says. That the challenge search ends for a given message is not part of the claim."
  }
 ]
}
