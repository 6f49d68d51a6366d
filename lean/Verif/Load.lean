import Verif.Util
/-!
# `path_processor.h`: loading a file piece by piece

A file is a list of characters (bytes).  `fgetc` returns `EOF` at the end; because its result is
stored in a `char`, a byte 0xFF also reads as `EOF`.
-/

namespace JPS

/-- `MEMORY_FOOTPRINT`, path_processor.h:23. -/
def MEMORY_FOOTPRINT : Nat := 250000000
/-- `MAX_EXTENSION`, path_processor.h:18. -/
def MAX_EXTENSION : Nat := 2000

/-- The byte that `(char)fgetc(fp) == EOF` takes for the end of the file. -/
def isEofByte (c : Char) : Bool := c.toNat == 255

/-- Blanks skipped by the loops at path_processor.h:70 and 120. -/
def isSkip (c : Char) : Bool := c == ' ' || c == '\t' || c == '\n' || c == '\r'

/-- The character before a quote, blanks skipped: path_processor.h:68-74, on the reversed text
read so far.  `none`: the loop runs below the start of the buffer. -/
def prevChar (rev : List Char) : Option Char := (rev.dropWhile isSkip).head?

/-- A quote after this character starts a token at which a piece may end, path_processor.h:75. -/
def opensToken (c : Option Char) : Bool := c == some ',' || c == some '{' || c == some '['

/-- The extension loop, path_processor.h:62-83: characters taken from the rest of the file.
`rev` is the text of the piece so far, reversed. -/
def extend (rev : List Char) : List Char → List Char
  | [] => []
  | c :: r =>
    if isEofByte c then []
    else if c = '"' ∧ opensToken (prevChar rev) then []
    else c :: extend (c :: rev) r

/-- The extension loop reads below the start of the buffer. -/
def extendUnder (rev : List Char) : List Char → Bool
  | [] => false
  | c :: r =>
    if isEofByte c then false
    else if c = '"' then
      (prevChar rev).isNone || (!opensToken (prevChar rev) && extendUnder (c :: rev) r)
    else extendUnder (c :: rev) r

/-- `loadBoundedInputStream`, path_processor.h:42-89, with footprint `B`: the next piece of the
file from position `pos`, or NULL. -/
def loadBounded (B : Nat) (file : List Char) (pos : Nat) : Option (List Char) :=
  let size := min (file.length - pos) B
  if size = 0 then none
  else
    let base := (file.drop pos).take size
    some (base ++ extend base.reverse (file.drop (pos + size)))

/-- Undefined behaviour in one call: more than `MAX_EXTENSION - 1` added characters overrun the
buffer (line 58, 80, 84), or the backward loop leaves it. -/
def loadUb (B : Nat) (file : List Char) (pos : Nat) : Bool :=
  let size := min (file.length - pos) B
  let base := (file.drop pos).take size
  size ≠ 0 && (decide ((extend base.reverse (file.drop (pos + size))).length ≥ MAX_EXTENSION) ||
    extendUnder base.reverse (file.drop (pos + size)))

/-- The loop of `serialRun`, path_processor.h:234-240: all pieces in order.  `fuel` bounds the
number of iterations (`pieces_fuel` shows that the file length suffices). -/
def pieces (B : Nat) (file : List Char) : Nat → Nat → List (List Char)
  | 0, _ => []
  | fuel + 1, pos =>
    match loadBounded B file pos with
    | none => []
    | some s => s :: pieces B file fuel (pos + s.length)

/-- Undefined behaviour in one of the calls of that loop. -/
def loadsUb (B : Nat) (file : List Char) : Nat → Nat → Bool
  | 0, _ => false
  | fuel + 1, pos => loadUb B file pos ||
    match loadBounded B file pos with
    | none => false
    | some s => loadsUb B file fuel (pos + s.length)

/-- Streams that stay open after the loop: `fclose` at path_processor.h:87 is not reached if the function returns at line 56, which it
does once, at the end. -/
def openStreams (B : Nat) (file : List Char) : Nat → Nat → Nat
  | 0, _ => 0
  | fuel + 1, pos =>
    match loadBounded B file pos with
    | none => 1
    | some s => openStreams B file fuel (pos + s.length)

end JPS
