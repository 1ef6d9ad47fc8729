import Verif.Model.Base
import Mathlib.Data.Nat.Digits.Defs

/-
The format of the files in /repo/kats (as described by the files themselves): a file is a list of lines; a vector consists of the lines

    count = ...
    seed = ...
    mlen = <length of the message>
    msg = <message>
    pk = <public key>
    sk = <private key>
    smlen = <length of sm>
    sm = <length of the signature, 4 bytes> <message> <signature>

and may be preceded by empty lines and comments.  Lengths are decimal, byte strings hexadecimal.
-/

namespace Spec.Kats

open Picnic

/-- The codes of the characters of a string. -/
def text (s : String) : Buf := s.toList.map fun c => BitVec.ofNat 8 c.toNat

/-- The code `c` is a hexadecimal digit of value `v`. -/
def HexDigit (c : Byte) (v : ℕ) : Prop := (text "0123456789abcdef")[v]? = some c ∨ (text "0123456789ABCDEF")[v]? = some c

/-- The characters `cs` are the bytes `bs` in hexadecimal notation. -/
inductive IsHex : Buf → Buf → Prop
  | nil : IsHex [] []
  | cons {h l : Byte} {a b : ℕ} {cs bs : Buf} : HexDigit h a → HexDigit l b → IsHex cs bs → IsHex (h :: l :: cs) (BitVec.ofNat 8 (16 * a + b) :: bs)

/-- The decimal notation of a number. -/
def dec (n : ℕ) : Buf := (Nat.digits 10 n).reverse.map fun d => BitVec.ofNat 8 (0x30 + d)

/-- A vector: message, keys, the bytes before the signature, the signature. -/
structure Vec where
  msg : Buf
  pk : Buf
  sk : Buf
  header : Buf
  sig : Buf

/-- A line that is skipped between vectors. -/
def Skip (l : Buf) : Prop := l.length ≤ 1 ∨ l.head? = some 0x23

/-- The lines `ls` are those of the vector `v`. -/
def Lines (v : Vec) (ls : List Buf) : Prop := ∃ (skip : List Buf) (count seed hmsg hpk hsk hsm : Buf), (∀ l ∈ skip, Skip l) ∧ IsHex hmsg v.msg ∧
  IsHex hpk v.pk ∧ IsHex hsk v.sk ∧ IsHex hsm (v.header ++ v.sig) ∧
  ls = skip ++ [text "count = " ++ count, text "seed = " ++ seed, text "mlen = " ++ dec v.msg.length ++ [0x0a], text "msg = " ++ hmsg ++ [0x0a],
    text "pk = " ++ hpk ++ [0x0a], text "sk = " ++ hsk ++ [0x0a], text "smlen = " ++ dec (v.header ++ v.sig).length ++ [0x0a],
    text "sm = " ++ hsm ++ [0x0a]]

/-- The lines are those of the vectors, one after the other; empty lines and comments may follow. -/
inductive File : List Vec → List Buf → Prop
  | nil {skip : List Buf} : (∀ l ∈ skip, Skip l) → File [] skip
  | cons {v : Vec} {vs : List Vec} {ls rest : List Buf} : Lines v ls → File vs rest → File (v :: vs) (ls ++ rest)

/-- A vector with keys of the given sizes; before the signature there is room for its length and the message. -/
structure Sized (pks sks : ℕ) (v : Vec) : Prop where
  msg : 1 ≤ v.msg.length
  msg32 : v.msg.length + 200 ≤ 2 ^ 32
  pk : v.pk.length = pks
  sk : v.sk.length = sks
  header : v.header.length = 4 + v.msg.length
  sig : v.sig.length < 2 ^ 60

/-- A line that is neither skipped nor part of a vector. -/
def Unknown (l : Buf) : Prop := ¬ Skip l ∧
  ∀ s ∈ ["count = ", "seed = ", "mlen = ", "msg = ", "pk = ", "sk = ", "smlen = ", "sm = "], ¬ text s <+: l

end Spec.Kats
