import Verif.Proofs.GrainChunk
import Verif.Proofs.GrainCerts128
import Verif.Proofs.GrainCerts192p
import Verif.Proofs.GrainCerts256
import Verif.Model.LowMCTables128
import Verif.Model.LowMCTables192p
import Verif.Model.LowMCTables256

/-
Evaluation of the generator of the constants for all instances.
-/

namespace Picnic.Tables

open Spec Spec.Grain

-- one evaluation at a time: each needs up to 3 GB
set_option Elab.async false

/-- What is checked in a chunk, for all instances. -/
def six (base : ℕ) (j1 j2 j3 j4 j5 j6 : Job) (O len : ℕ) : Bool :=
  jobCheck t129 c129 4 O len base j1 && (jobCheck t192 c192 4 O len base j2 && (jobCheck t255 c255 4 O len base j3 &&
    (jobCheck t128 c128 20 O len base j4 && (jobCheck t192p c192p 30 O len base j5 && jobCheck t256 c256 38 O len base j6))))

theorem six_ok {g : ℕ → Bool} {base : ℕ} {j1 j2 j3 j4 j5 j6 : Job}
    (h : ∃ O len, (∀ i < len, g (base + i) = O.testBit i) ∧ six base j1 j2 j3 j4 j5 j6 O len = true) :
    JobOK t129 c129 4 g j1 ∧ JobOK t192 c192 4 g j2 ∧ JobOK t255 c255 4 g j3 ∧ JobOK t128 c128 20 g j4 ∧ JobOK t192p c192p 30 g j5 ∧
      JobOK t256 c256 38 g j6 := by
  obtain ⟨O, len, hO, h⟩ := h
  simp only [six, Bool.and_eq_true] at h
  obtain ⟨h1, h2, h3, h4, h5, h6⟩ := h
  exact ⟨jobOK_of_check (by decide) hO h1, jobOK_of_check (by decide) hO h2, jobOK_of_check (by decide) hO h3, jobOK_of_check (by decide) hO h4,
    jobOK_of_check (by decide) hO h5, jobOK_of_check (by decide) hO h6⟩

theorem startW_eq : startW = 88941721959734885255956 := by decide +kernel

theorem chunk0 : chunkCheck 88941721959734885255956 1399539 1102647793523278644787593 700416 0
    (six 0 ⟨0, 4, true, 0, 5⟩ ⟨0, 4, true, 0, 4⟩ ⟨0, 4, true, 0, 4⟩ ⟨0, 20, true, 0, 0⟩ ⟨0, 6, false, 0, 0⟩ ⟨0, 6, false, 0, 0⟩) = true := by
  decide +kernel

theorem chunk1 : chunkCheck 1102647793523278644787593 1352253 788440897325330669817025 675840 700416
    (six 700416 ⟨0, 0, false, 0, 0⟩ ⟨0, 0, false, 4, 1⟩ ⟨0, 0, false, 4, 1⟩ ⟨0, 0, false, 0, 16⟩ ⟨6, 6, false, 0, 0⟩ ⟨6, 2, false, 0, 0⟩) = true := by
  decide +kernel

theorem chunk2 : chunkCheck 788440897325330669817025 1746268 51013212442130907852663 872448 1376256
    (six 1376256 ⟨0, 0, false, 0, 0⟩ ⟨0, 0, false, 0, 0⟩ ⟨0, 0, false, 0, 0⟩ ⟨0, 0, false, 16, 5⟩ ⟨12, 2, false, 0, 0⟩ ⟨8, 2, false, 0, 0⟩) = true := by
  decide +kernel

theorem chunk3 : chunkCheck 51013212442130907852663 1793979 1130202180460191646265967 897024 2248704
    (six 2248704 ⟨0, 0, false, 0, 0⟩ ⟨0, 0, false, 0, 0⟩ ⟨0, 0, false, 0, 0⟩ ⟨0, 0, false, 0, 0⟩ ⟨14, 7, false, 0, 0⟩ ⟨10, 5, false, 0, 0⟩) = true := by
  decide +kernel

theorem chunk4 : chunkCheck 1130202180460191646265967 1573001 89157222847010067982059 786432 3145728
    (six 3145728 ⟨0, 0, false, 0, 0⟩ ⟨0, 0, false, 0, 0⟩ ⟨0, 0, false, 0, 0⟩ ⟨0, 0, false, 0, 0⟩ ⟨21, 7, false, 0, 0⟩ ⟨15, 4, false, 0, 0⟩) = true := by
  decide +kernel

theorem chunk5 : chunkCheck 89157222847010067982059 1967423 405052038726787916349529 983040 3932160
    (six 3932160 ⟨0, 0, false, 0, 0⟩ ⟨0, 0, false, 0, 0⟩ ⟨0, 0, false, 0, 0⟩ ⟨0, 0, false, 0, 0⟩ ⟨28, 2, true, 0, 4⟩ ⟨19, 6, false, 0, 0⟩) = true := by
  decide +kernel

theorem chunk6 : chunkCheck 405052038726787916349529 1831125 276383337289436163987607 915072 4915200
    (six 4915200 ⟨0, 0, false, 0, 0⟩ ⟨0, 0, false, 0, 0⟩ ⟨0, 0, false, 0, 0⟩ ⟨0, 0, false, 0, 0⟩ ⟨0, 0, false, 4, 8⟩ ⟨25, 4, false, 0, 0⟩) = true := by
  decide +kernel

theorem chunk7 : chunkCheck 276383337289436163987607 1578704 1083045477767420651810483 788864 5830272
    (six 5830272 ⟨0, 0, false, 0, 0⟩ ⟨0, 0, false, 0, 0⟩ ⟨0, 0, false, 0, 0⟩ ⟨0, 0, false, 0, 0⟩ ⟨0, 0, false, 12, 9⟩ ⟨29, 5, false, 0, 0⟩) = true := by
  decide +kernel

theorem chunk8 : chunkCheck 1083045477767420651810483 1150213 103738290523995719075705 575104 6619136
    (six 6619136 ⟨0, 0, false, 0, 0⟩ ⟨0, 0, false, 0, 0⟩ ⟨0, 0, false, 0, 0⟩ ⟨0, 0, false, 0, 0⟩ ⟨0, 0, false, 21, 3⟩ ⟨34, 4, true, 0, 0⟩) = true := by
  decide +kernel

theorem chunk9 : chunkCheck 103738290523995719075705 835084 704214400005245988825531 417664 7194240
    (six 7194240 ⟨0, 0, false, 0, 0⟩ ⟨0, 0, false, 0, 0⟩ ⟨0, 0, false, 0, 0⟩ ⟨0, 0, false, 0, 0⟩ ⟨0, 0, false, 24, 1⟩ ⟨0, 0, false, 0, 0⟩) = true := by
  decide +kernel

theorem chunk10 : chunkCheck 704214400005245988825531 1817012 347895638744801829353701 909440 7611904
    (six 7611904 ⟨0, 0, false, 0, 0⟩ ⟨0, 0, false, 0, 0⟩ ⟨0, 0, false, 0, 0⟩ ⟨0, 0, false, 0, 0⟩ ⟨0, 0, false, 25, 2⟩ ⟨0, 0, false, 0, 1⟩) = true := by
  decide +kernel

theorem chunk11 : chunkCheck 347895638744801829353701 1717954 1046746787623118232865779 860032 8521344
    (six 8521344 ⟨0, 0, false, 0, 0⟩ ⟨0, 0, false, 0, 0⟩ ⟨0, 0, false, 0, 0⟩ ⟨0, 0, false, 0, 0⟩ ⟨0, 0, false, 27, 4⟩ ⟨0, 0, false, 1, 2⟩) = true := by
  decide +kernel

theorem chunk12 : chunkCheck 1046746787623118232865779 1705352 110131493960147543637543 851968 9381376
    (six 9381376 ⟨0, 0, false, 0, 0⟩ ⟨0, 0, false, 0, 0⟩ ⟨0, 0, false, 0, 0⟩ ⟨0, 0, false, 0, 0⟩ ⟨0, 0, false, 0, 0⟩ ⟨0, 0, false, 3, 4⟩) = true := by
  decide +kernel

theorem chunk13 : chunkCheck 110131493960147543637543 1966791 59486391974902298606423 983040 10233344
    (six 10233344 ⟨0, 0, false, 0, 0⟩ ⟨0, 0, false, 0, 0⟩ ⟨0, 0, false, 0, 0⟩ ⟨0, 0, false, 0, 0⟩ ⟨0, 0, false, 0, 0⟩ ⟨0, 0, false, 7, 4⟩) = true := by
  decide +kernel

theorem chunk14 : chunkCheck 59486391974902298606423 1967899 305033994148544480026345 983040 11216384
    (six 11216384 ⟨0, 0, false, 0, 0⟩ ⟨0, 0, false, 0, 0⟩ ⟨0, 0, false, 0, 0⟩ ⟨0, 0, false, 0, 0⟩ ⟨0, 0, false, 0, 0⟩ ⟨0, 0, false, 11, 4⟩) = true := by
  decide +kernel

theorem chunk15 : chunkCheck 305033994148544480026345 2095112 433351478285237969354615 1048576 12199424
    (six 12199424 ⟨0, 0, false, 0, 0⟩ ⟨0, 0, false, 0, 0⟩ ⟨0, 0, false, 0, 0⟩ ⟨0, 0, false, 0, 0⟩ ⟨0, 0, false, 0, 0⟩ ⟨0, 0, false, 15, 4⟩) = true := by
  decide +kernel

theorem chunk16 : chunkCheck 433351478285237969354615 917141 1047833783166618620288197 458752 13248000
    (six 13248000 ⟨0, 0, false, 0, 0⟩ ⟨0, 0, false, 0, 0⟩ ⟨0, 0, false, 0, 0⟩ ⟨0, 0, false, 0, 0⟩ ⟨0, 0, false, 0, 0⟩ ⟨0, 0, false, 19, 3⟩) = true := by
  decide +kernel

theorem chunk17 : chunkCheck 1047833783166618620288197 1575409 332194374584715034379679 786432 13706752
    (six 13706752 ⟨0, 0, false, 0, 0⟩ ⟨0, 0, false, 0, 0⟩ ⟨0, 0, false, 0, 0⟩ ⟨0, 0, false, 0, 0⟩ ⟨0, 0, false, 0, 0⟩ ⟨0, 0, false, 22, 2⟩) = true := by
  decide +kernel

theorem chunk18 : chunkCheck 332194374584715034379679 2095754 960948714322298575052827 1048576 14493184
    (six 14493184 ⟨0, 0, false, 0, 0⟩ ⟨0, 0, false, 0, 0⟩ ⟨0, 0, false, 0, 0⟩ ⟨0, 0, false, 0, 0⟩ ⟨0, 0, false, 0, 0⟩ ⟨0, 0, false, 24, 6⟩) = true := by
  decide +kernel

theorem chunk19 : chunkCheck 960948714322298575052827 1572602 381412308236688196585243 786432 15541760
    (six 15541760 ⟨0, 0, false, 0, 0⟩ ⟨0, 0, false, 0, 0⟩ ⟨0, 0, false, 0, 0⟩ ⟨0, 0, false, 0, 0⟩ ⟨0, 0, false, 0, 0⟩ ⟨0, 0, false, 30, 6⟩) = true := by
  decide +kernel

theorem chunk20 : chunkCheck 381412308236688196585243 1704663 612059315159211602389575 851968 16328192
    (six 16328192 ⟨0, 0, false, 0, 0⟩ ⟨0, 0, false, 0, 0⟩ ⟨0, 0, false, 0, 0⟩ ⟨0, 0, false, 0, 0⟩ ⟨0, 0, false, 0, 0⟩ ⟨0, 0, false, 36, 2⟩) = true := by
  decide +kernel

theorem chunk21 : chunkCheck 612059315159211602389575 2021 1190714592178260442029011 1000 17180160
    (six 17180160 ⟨0, 0, false, 0, 0⟩ ⟨0, 0, false, 0, 0⟩ ⟨0, 0, false, 0, 0⟩ ⟨0, 0, false, 0, 0⟩ ⟨0, 0, false, 0, 0⟩ ⟨0, 0, false, 38, 1⟩) = true := by
  decide +kernel

/-- All tables of an instance are those that the generator makes. -/
structure InstOK (T : NatTables) (C : Certs) (r : ℕ) (g : ℕ → Bool) : Prop where
  L : ∀ t < r, MatOK T.n g 0 C.rejL T.L t
  RC : RcOK T C r g
  K : ∀ t ≤ r, MatOK T.n g (rcPos T C r + T.n * r) C.rejK T.K t

theorem chunks_spec {b g : ℕ → Bool} (hb : IsRegister b) (hg : IsKept b g) :
    InstOK t129 c129 4 g ∧ InstOK t192 c192 4 g ∧ InstOK t255 c255 4 g ∧ InstOK t128 c128 20 g ∧ InstOK t192p c192p 30 g ∧ InstOK t256 c256 38 g := by
  have a0 := at_start hb
  rw [startW_eq] at a0
  obtain ⟨a1, x0⟩ := chunk_ok hb hg a0 chunk0
  replace a1 : At b 1399539 700416 1102647793523278644787593 := a1
  obtain ⟨p0, q0, r0, u0, v0, w0⟩ := six_ok x0
  obtain ⟨a2, x1⟩ := chunk_ok hb hg a1 chunk1
  replace a2 : At b 2751792 1376256 788440897325330669817025 := a2
  obtain ⟨p1, q1, r1, u1, v1, w1⟩ := six_ok x1
  obtain ⟨a3, x2⟩ := chunk_ok hb hg a2 chunk2
  replace a3 : At b 4498060 2248704 51013212442130907852663 := a3
  obtain ⟨p2, q2, r2, u2, v2, w2⟩ := six_ok x2
  obtain ⟨a4, x3⟩ := chunk_ok hb hg a3 chunk3
  replace a4 : At b 6292039 3145728 1130202180460191646265967 := a4
  obtain ⟨p3, q3, r3, u3, v3, w3⟩ := six_ok x3
  obtain ⟨a5, x4⟩ := chunk_ok hb hg a4 chunk4
  replace a5 : At b 7865040 3932160 89157222847010067982059 := a5
  obtain ⟨p4, q4, r4, u4, v4, w4⟩ := six_ok x4
  obtain ⟨a6, x5⟩ := chunk_ok hb hg a5 chunk5
  replace a6 : At b 9832463 4915200 405052038726787916349529 := a6
  obtain ⟨p5, q5, r5, u5, v5, w5⟩ := six_ok x5
  obtain ⟨a7, x6⟩ := chunk_ok hb hg a6 chunk6
  replace a7 : At b 11663588 5830272 276383337289436163987607 := a7
  obtain ⟨p6, q6, r6, u6, v6, w6⟩ := six_ok x6
  obtain ⟨a8, x7⟩ := chunk_ok hb hg a7 chunk7
  replace a8 : At b 13242292 6619136 1083045477767420651810483 := a8
  obtain ⟨p7, q7, r7, u7, v7, w7⟩ := six_ok x7
  obtain ⟨a9, x8⟩ := chunk_ok hb hg a8 chunk8
  replace a9 : At b 14392505 7194240 103738290523995719075705 := a9
  obtain ⟨p8, q8, r8, u8, v8, w8⟩ := six_ok x8
  obtain ⟨a10, x9⟩ := chunk_ok hb hg a9 chunk9
  replace a10 : At b 15227589 7611904 704214400005245988825531 := a10
  obtain ⟨p9, q9, r9, u9, v9, w9⟩ := six_ok x9
  obtain ⟨a11, x10⟩ := chunk_ok hb hg a10 chunk10
  replace a11 : At b 17044601 8521344 347895638744801829353701 := a11
  obtain ⟨p10, q10, r10, u10, v10, w10⟩ := six_ok x10
  obtain ⟨a12, x11⟩ := chunk_ok hb hg a11 chunk11
  replace a12 : At b 18762555 9381376 1046746787623118232865779 := a12
  obtain ⟨p11, q11, r11, u11, v11, w11⟩ := six_ok x11
  obtain ⟨a13, x12⟩ := chunk_ok hb hg a12 chunk12
  replace a13 : At b 20467907 10233344 110131493960147543637543 := a13
  obtain ⟨p12, q12, r12, u12, v12, w12⟩ := six_ok x12
  obtain ⟨a14, x13⟩ := chunk_ok hb hg a13 chunk13
  replace a14 : At b 22434698 11216384 59486391974902298606423 := a14
  obtain ⟨p13, q13, r13, u13, v13, w13⟩ := six_ok x13
  obtain ⟨a15, x14⟩ := chunk_ok hb hg a14 chunk14
  replace a15 : At b 24402597 12199424 305033994148544480026345 := a15
  obtain ⟨p14, q14, r14, u14, v14, w14⟩ := six_ok x14
  obtain ⟨a16, x15⟩ := chunk_ok hb hg a15 chunk15
  replace a16 : At b 26497709 13248000 433351478285237969354615 := a16
  obtain ⟨p15, q15, r15, u15, v15, w15⟩ := six_ok x15
  obtain ⟨a17, x16⟩ := chunk_ok hb hg a16 chunk16
  replace a17 : At b 27414850 13706752 1047833783166618620288197 := a17
  obtain ⟨p16, q16, r16, u16, v16, w16⟩ := six_ok x16
  obtain ⟨a18, x17⟩ := chunk_ok hb hg a17 chunk17
  replace a18 : At b 28990259 14493184 332194374584715034379679 := a18
  obtain ⟨p17, q17, r17, u17, v17, w17⟩ := six_ok x17
  obtain ⟨a19, x18⟩ := chunk_ok hb hg a18 chunk18
  replace a19 : At b 31086013 15541760 960948714322298575052827 := a19
  obtain ⟨p18, q18, r18, u18, v18, w18⟩ := six_ok x18
  obtain ⟨a20, x19⟩ := chunk_ok hb hg a19 chunk19
  replace a20 : At b 32658615 16328192 381412308236688196585243 := a20
  obtain ⟨p19, q19, r19, u19, v19, w19⟩ := six_ok x19
  obtain ⟨a21, x20⟩ := chunk_ok hb hg a20 chunk20
  replace a21 : At b 34363278 17180160 612059315159211602389575 := a21
  obtain ⟨p20, q20, r20, u20, v20, w20⟩ := six_ok x20
  obtain ⟨a22, x21⟩ := chunk_ok hb hg a21 chunk21
  replace a22 : At b 34365299 17181160 1190714592178260442029011 := a22
  obtain ⟨p21, q21, r21, u21, v21, w21⟩ := six_ok x21
  refine ⟨⟨fun t ht => ?_, p0.RC rfl, fun t ht => ?_⟩, ⟨fun t ht => ?_, q0.RC rfl, fun t ht => ?_⟩, ⟨fun t ht => ?_, r0.RC rfl, fun t ht => ?_⟩, ⟨fun t ht => ?_, u0.RC rfl, fun t ht => ?_⟩, ⟨fun t ht => ?_, v5.RC rfl, fun t ht => ?_⟩, ⟨fun t ht => ?_, w8.RC rfl, fun t ht => ?_⟩⟩
  · exact p0.L t (by dsimp only; omega) (by dsimp only; omega)
  · exact p0.K t (by dsimp only; omega) (by dsimp only; omega)
  · exact q0.L t (by dsimp only; omega) (by dsimp only; omega)
  · by_cases h0 : t < 4
    · exact q0.K t (by dsimp only; omega) (by dsimp only; omega)
    exact q1.K t (by dsimp only; omega) (by dsimp only; omega)
  · exact r0.L t (by dsimp only; omega) (by dsimp only; omega)
  · by_cases h0 : t < 4
    · exact r0.K t (by dsimp only; omega) (by dsimp only; omega)
    exact r1.K t (by dsimp only; omega) (by dsimp only; omega)
  · exact u0.L t (by dsimp only; omega) (by dsimp only; omega)
  · by_cases h1 : t < 16
    · exact u1.K t (by dsimp only; omega) (by dsimp only; omega)
    exact u2.K t (by dsimp only; omega) (by dsimp only; omega)
  · by_cases h0 : t < 6
    · exact v0.L t (by dsimp only; omega) (by dsimp only; omega)
    by_cases h1 : t < 12
    · exact v1.L t (by dsimp only; omega) (by dsimp only; omega)
    by_cases h2 : t < 14
    · exact v2.L t (by dsimp only; omega) (by dsimp only; omega)
    by_cases h3 : t < 21
    · exact v3.L t (by dsimp only; omega) (by dsimp only; omega)
    by_cases h4 : t < 28
    · exact v4.L t (by dsimp only; omega) (by dsimp only; omega)
    exact v5.L t (by dsimp only; omega) (by dsimp only; omega)
  · by_cases h5 : t < 4
    · exact v5.K t (by dsimp only; omega) (by dsimp only; omega)
    by_cases h6 : t < 12
    · exact v6.K t (by dsimp only; omega) (by dsimp only; omega)
    by_cases h7 : t < 21
    · exact v7.K t (by dsimp only; omega) (by dsimp only; omega)
    by_cases h8 : t < 24
    · exact v8.K t (by dsimp only; omega) (by dsimp only; omega)
    by_cases h9 : t < 25
    · exact v9.K t (by dsimp only; omega) (by dsimp only; omega)
    by_cases h10 : t < 27
    · exact v10.K t (by dsimp only; omega) (by dsimp only; omega)
    exact v11.K t (by dsimp only; omega) (by dsimp only; omega)
  · by_cases h0 : t < 6
    · exact w0.L t (by dsimp only; omega) (by dsimp only; omega)
    by_cases h1 : t < 8
    · exact w1.L t (by dsimp only; omega) (by dsimp only; omega)
    by_cases h2 : t < 10
    · exact w2.L t (by dsimp only; omega) (by dsimp only; omega)
    by_cases h3 : t < 15
    · exact w3.L t (by dsimp only; omega) (by dsimp only; omega)
    by_cases h4 : t < 19
    · exact w4.L t (by dsimp only; omega) (by dsimp only; omega)
    by_cases h5 : t < 25
    · exact w5.L t (by dsimp only; omega) (by dsimp only; omega)
    by_cases h6 : t < 29
    · exact w6.L t (by dsimp only; omega) (by dsimp only; omega)
    by_cases h7 : t < 34
    · exact w7.L t (by dsimp only; omega) (by dsimp only; omega)
    exact w8.L t (by dsimp only; omega) (by dsimp only; omega)
  · by_cases h10 : t < 1
    · exact w10.K t (by dsimp only; omega) (by dsimp only; omega)
    by_cases h11 : t < 3
    · exact w11.K t (by dsimp only; omega) (by dsimp only; omega)
    by_cases h12 : t < 7
    · exact w12.K t (by dsimp only; omega) (by dsimp only; omega)
    by_cases h13 : t < 11
    · exact w13.K t (by dsimp only; omega) (by dsimp only; omega)
    by_cases h14 : t < 15
    · exact w14.K t (by dsimp only; omega) (by dsimp only; omega)
    by_cases h15 : t < 19
    · exact w15.K t (by dsimp only; omega) (by dsimp only; omega)
    by_cases h16 : t < 22
    · exact w16.K t (by dsimp only; omega) (by dsimp only; omega)
    by_cases h17 : t < 24
    · exact w17.K t (by dsimp only; omega) (by dsimp only; omega)
    by_cases h18 : t < 30
    · exact w18.K t (by dsimp only; omega) (by dsimp only; omega)
    by_cases h19 : t < 36
    · exact w19.K t (by dsimp only; omega) (by dsimp only; omega)
    by_cases h20 : t < 38
    · exact w20.K t (by dsimp only; omega) (by dsimp only; omega)
    exact w21.K t (by dsimp only; omega) (by dsimp only; omega)

end Picnic.Tables
