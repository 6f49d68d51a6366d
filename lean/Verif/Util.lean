/-!
# `utility.c`

Streams are `List Char` without the terminating NUL.
-/

namespace JPS

/-- Number of leading blanks of a text.
Models `ltrim` / `left_null_count`, utility.c:78-84 and 92-99: the pointer moves over
`' '` only (not over tabs or newlines). -/
def lead : List Char → Nat
  | [] => 0
  | c :: cs => if c = ' ' then lead cs + 1 else 0

/-- `ltrim(s)`, utility.c:78-84. -/
def ltrim (s : List Char) : List Char := s.drop (lead s)

/-- Text produced by `substring(pText, begin, end)` and `substring_in_place`,
utility.c:27-40 and 47-57: the characters `begin ≤ i < end` of `ltrim(pText)`.
Reading the terminating NUL ends the C string, hence the natural truncation of
`take` / `drop`; reading past the NUL is reported by `substringOOB`. -/
def substring (s : List Char) (b e : Nat) : List Char := ((ltrim s).take e).drop b

/-- `substring` reads beyond the terminating NUL of its argument:
utility.c:34-37 reads `temp[i]` for `i < end` without looking for the end of the text. -/
def substringOOB (s : List Char) (e : Nat) : Bool := decide (lead s + e > s.length + 1)

/-- Bytes written by `strcopy` for a text of length `n`, utility.c:10-19: the text,
its NUL, and one more NUL. -/
def strcopyBytes (n : Nat) : Nat := n + 2

end JPS
