/-!
# `Lexer/charset.cpp`, `EscapeChar` and `HexStringToDec` of `Lexer/utility.hpp`, and
`SetConverter` of `Lexer/set_converter.cpp`

The parser of the texts of character sets (`a-z_`, `^0-9`).  The compiler of JSONPath queries
only uses the text `^`; the rest of the code is modelled here for its own sake.

A result `none` stands for undefined behaviour: an iterator moved or read past the end, a range
erased from a later to an earlier position, or a write outside a vector.
-/

set_option autoImplicit false

namespace JPS

/-- `charset_value::type`, charset.hpp:11-26 and 44-46: a single character (0), the begin (1) or
the end (-1) of an interval.  The field `eclass` is never read and not modelled. -/
inductive CTy where
  | solo | beg | fin
deriving DecidableEq, Repr

/-- The map `charset`, charset.hpp:42, as the list of its entries in increasing order. -/
abbrev CMap := List (Nat × CTy)

/-- The entries before the key `c` of a map. -/
def CMap.below (s : CMap) (c : Nat) : CMap := s.filter fun e => decide (e.1 < c)

/-- The entries after the key `c` of a map. -/
def CMap.above (s : CMap) (c : Nat) : CMap := s.filter fun e => decide (c < e.1)

/-- `charset[c].type = t` of a `std::map`, charset.cpp:56-57 and 97. -/
def CMap.put (s : CMap) (c : Nat) (t : CTy) : CMap := s.below c ++ (c, t) :: s.above c

/-- The last test of `CharSet::insert(regex_char c)` and the entry made before, charset.cpp:97 and
111-117; `b` and `a` are the entries before and after `c`. -/
def joinNext (b a : CMap) (c : Nat) : CMap :=
  match a with
  | (k, .beg) :: r => if k - c = 1 then b ++ (c, .beg) :: r else b ++ (c, .solo) :: a
  | _ => b ++ (c, .solo) :: a

/-- `CharSet::insert(regex_char c)`, charset.cpp:94-119. -/
def CMap.insert (s : CMap) (c : Nat) : CMap :=
  if s.any fun e => e.1 == c then s
  else
    match (s.below c).getLast? with
    | some (_, .beg) => s.below c ++ s.above c
    | some (k, .fin) =>
      if c - k = 1 then (s.below c).dropLast ++ (c, .fin) :: s.above c
      else joinNext (s.below c) (s.above c) c
    | _ => joinNext (s.below c) (s.above c) c

/-- The iterator `f` of `CharSet::insert(p, q)`, charset.cpp:59-75, as the key of its entry
(`none` is the end of the map).  `lf` says whether the left operand of
`i->first - (--i)->first` is evaluated before the right one: the language leaves the order open,
and with the right operand first the difference is 0. -/
def CMap.rangeF (lf : Bool) (s1 : CMap) (p : Nat) : Option Nat :=
  match (s1.below p).getLast? with
  | none => (s1.above p).head?.map (·.1)
  | some (k, t) =>
    if (lf && decide (p - k > 1)) && t != .beg then (s1.above p).head?.map (·.1)
    else if t == .beg then some p
    else some k

/-- The iterator `l` of `CharSet::insert(p, q)`, charset.cpp:77-90, as the key of its entry. -/
def CMap.rangeL (lf : Bool) (s1 : CMap) (q : Nat) : Nat :=
  match s1.above q with
  | [] => q
  | (k, t) :: _ => if (lf && decide (k - q > 1)) && t == .fin then k else q

/-- `CharSet::insert(regex_char p, regex_char q)`, charset.cpp:51-92.  Erasing from `l` to an
earlier `f` (line 91) is undefined, and so is reading the key of the end. -/
def CMap.insertRange (lf : Bool) (s : CMap) (p q : Nat) : Option CMap :=
  if p = q then some (s.insert p)
  else
    let s1 := (s.put p .beg).put q .fin
    match s1.rangeF lf p with
    | none => none
    | some f => if s1.rangeL lf q > f then none else some s1

/-- A byte of a string read as `regex_char`: `char` is signed, so that bytes from 128 on become
numbers near 2^32 (charset.cpp:33, utility.hpp:92). -/
def byteVal (b : Nat) : Nat := if b < 128 then b else 4294967040 + b

/-- The value of one digit, utility.hpp:17-28. -/
def hexDigit (c : Nat) : Option Nat :=
  if 48 ≤ c ∧ c ≤ 57 then some (c - 48)
  else if 97 ≤ c ∧ c ≤ 102 then some (c - 97 + 10)
  else if 65 ≤ c ∧ c ≤ 70 then some (c - 65 + 10)
  else none

/-- The loop of `HexStringToDec`, utility.hpp:13-30; -1 as `regex_char` is 2^32-1. -/
def hexLoop : List Nat → Nat → Nat
  | [], dec => dec
  | c :: r, dec =>
    match hexDigit c with
    | some d => hexLoop r ((dec * 16 + d) % 4294967296)
    | none => 4294967295

/-- `HexStringToDec`, utility.hpp:7-32: the C string up to its terminator, without leading
zeros. -/
def hexStringToDec (s : List Nat) : Nat :=
  hexLoop ((s.takeWhile (· != 0)).dropWhile (· == 48)) 0

/-- `EscapeChar(i, end)`, utility.hpp:71-104, on the text after the backslash: the character and
the text after it.  At the end of the text it returns -1 with `i == end` (lines 74 and 96); the
`++i` of the caller's loop (charset.cpp:23) is then undefined. -/
def escapeSet : List Nat → Option (Nat × List Nat)
  | [] => none
  | b :: r =>
    let hex (n : Nat) : Option (Nat × List Nat) :=
      if r.length < n then none else some (hexStringToDec (r.take n), r.drop n)
    if b = 110 then some (10, r)
    else if b = 116 then some (9, r)
    else if b = 114 then some (13, r)
    else if b = 102 then some (12, r)
    else if b = 118 then some (11, r)
    else if b = 120 then hex 2
    else if b = 117 then hex 4
    else if b = 85 then hex 8
    else some (byteVal b, r)

/-- A `CharSet`, charset.hpp:31-54.  `str` and `eclass_sum` are not read. -/
structure CharSet where
  map : CMap
  negate : Bool
deriving DecidableEq, Repr

/-- Body of the loop of `CharSet::CharSet(str)` for a character `c`, charset.cpp:35-42: the map,
`last` and `isConnector` afterwards. -/
def csetChar (lf : Bool) (s : CMap) (last : Nat) (conn : Bool) (c : Nat) :
    Option (CMap × Nat × Bool) :=
  if conn then (s.insertRange lf last c).map fun s' => (s', 0, false)
  else some (if last ≠ 0 then s.insert last else s, c, false)

/-- The loop of `CharSet::CharSet(str)`, charset.cpp:27-49, with at most `n` rounds. -/
def csetLoop (lf : Bool) : Nat → List Nat → CMap → Nat → Bool → Option CMap
  | _, [], s, last, _ => some (if last ≠ 0 then s.insert last else s)
  | 0, _ :: _, _, _, _ => none
  | n + 1, b :: r, s, last, conn =>
    if b = 45 then csetLoop lf n r s last true
    else if b = 92 then
      match escapeSet r with
      | none => none
      | some (c, r') =>
        match csetChar lf s last conn c with
        | none => none
        | some (s', last', conn') => csetLoop lf n r' s' last' conn'
    else
      match csetChar lf s last conn (byteVal b) with
      | none => none
      | some (s', last', conn') => csetLoop lf n r s' last' conn'

/-- `CharSet::CharSet(const std::string&)`, charset.cpp:18-49, with lines 24-26 for the first
character. -/
def CharSet.ofString (lf : Bool) (str : List Nat) : Option CharSet :=
  match str with
  | 94 :: r => (csetLoop lf r.length r [] 0 false).map fun s => ⟨s, true⟩
  | _ => (csetLoop lf str.length str [] 0 false).map fun s => ⟨s, false⟩

/-- `CharSet::CharSet(const CharSet&)`, charset.cpp:13-16: `negate` is not copied and keeps its
initial value false (charset.hpp:51). -/
def CharSet.copy (c : CharSet) : CharSet := ⟨c.map, false⟩

/-- The intervals visited by the loops over a map, set_converter.cpp:16-25,
equivalence_class.cpp:21-30 and 106-127: an entry that begins an interval is taken together with
the next entry, whatever its type; reading it at the end of the map is undefined. -/
def CMap.spans : CMap → Option (List (Nat × Nat))
  | [] => some []
  | (k, .solo) :: r => (spans r).map ((k, k) :: ·)
  | [(_, .beg)] => none
  | (p, .beg) :: (q, _) :: r => (spans r).map ((p, q) :: ·)
  | (_, .fin) :: r => spans r

/-- `SetConverter::insert`, set_converter.cpp:65-72: writes from `p` on to `n` entries. -/
def cvsFill (v : Bool) : Nat → Nat → List Bool → Option (List Bool)
  | _, 0, cvs => some cvs
  | p, n + 1, cvs => if p < cvs.length then cvsFill v (p + 1) n (cvs.set p v) else none

/-- The loop of `SetConverter::Convert` over the intervals, set_converter.cpp:16-25. -/
def cvsLoop (v : Bool) : List (Nat × Nat) → List Bool → Option (List Bool)
  | [], cvs => some cvs
  | (p, q) :: r, cvs => (cvsFill v p (q + 1 - p) cvs).bind (cvsLoop v r)

/-- `SetConverter::Convert`, set_converter.cpp:8-31: the letters given to a `RegexSet` with the
text `str`. -/
def setConvert (lf : Bool) (str : List Nat) : Option (List Nat) :=
  (CharSet.ofString lf str).bind fun c =>
    c.map.spans.bind fun sp =>
      (cvsLoop (!c.negate) sp (List.replicate 256 c.negate)).map fun cvs =>
        (List.range 256).filter fun i => (cvs[i]?).getD false

end JPS
