import Mathlib.Data.List.Lex
import Mathlib.Data.Nat.Basic

/-!
# Strings and string prefixes  (src/query/scan.rs:615-639, src/key/row.rs)

A Rust string is a list of Unicode scalar values (Lean's `Char`). Keys are compared by their UTF-8
bytes (src/key/row.rs `bytes_cmp`).
-/

namespace Tonbo.Model.Str

/-- UTF-8 encoding of one scalar value (std). -/
def encode (c : Char) : List Nat :=
  let n := c.toNat
  if n < 0x80 then [n]
  else if n < 0x800 then [0xC0 + n / 64, 0x80 + n % 64]
  else if n < 0x10000 then [0xE0 + n / 4096, 0x80 + n / 64 % 64, 0x80 + n % 64]
  else [0xF0 + n / 262144, 0x80 + n / 4096 % 64, 0x80 + n / 64 % 64, 0x80 + n % 64]

/-- `str::as_bytes` (std). -/
def bytes (s : List Char) : List Nat := s.flatMap encode

/-- `char::from_u32` (std). -/
def fromU32 (n : Nat) : Option Char :=
  if h : n.isValidChar then some (Char.ofNatAux n h) else none

/-- The `while` loop of `next_scalar_char` (src/query/scan.rs:630-639); `fuel` bounds the
iterations. -/
def nextLoop : Nat → Nat → Option Char
  | 0, _ => none
  | fuel + 1, next =>
    if next ≤ 0x10FFFF then
      match fromU32 next with
      | some ch => some ch
      | none => nextLoop fuel (next + 1)
    else none

/-- `next_scalar_char` (src/query/scan.rs:630-639). `checked_add` cannot fail on a `char`. -/
def nextScalar (c : Char) : Option Char := nextLoop (0x110000 - c.toNat) (c.toNat + 1)

/-- The loop of `next_prefix_string` (src/query/scan.rs:615-628), over the reversed list of
characters: the first character from the end that has a successor is replaced, everything after it is
dropped. -/
def nextRev : List Char → Option (List Char)
  | [] => none
  | c :: rest =>
    match nextScalar c with
    | some n => some (n :: rest)
    | none => nextRev rest

/-- `next_prefix_string` (src/query/scan.rs:615-628). -/
def nextPrefix (p : List Char) : Option (List Char) := (nextRev p.reverse).map List.reverse

end Tonbo.Model.Str
