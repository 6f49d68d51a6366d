import Verif.Load
import Verif.Stream
/-!
# `path_processor.h`: cutting an input into chunks, and `file_partition.c`
-/

set_option autoImplicit false

namespace JPS

/-- The terminating NUL of a C string. -/
def NUL : Char := '\x00'

/-- The search for the next token at which a chunk may end, path_processor.h:113-133, on the reversed text of
the chunk so far and the rest of the input: the characters added.  `none`: the search runs past the end of
the input (`sum_size` does not change inside the loop, so line 113 never stops it), or the inner loop
(120-124) runs below the start of the chunk. -/
def findCut (rev : Str) : Str → Option Str
  | [] => none
  | c :: r =>
    if c = '"' then
      match prevChar rev with
      | none => none
      | some p => if opensToken (some p) then some [] else (findCut (c :: rev) r).map (c :: ·)
    else (findCut (c :: rev) r).map (c :: ·)

/-- The text of a C buffer: up to the first NUL. -/
def cText (b : Str) : Str := b.takeWhile fun c => decide (c ≠ NUL)

/-- The loop of `partitionInputStream`, path_processor.h:106-137, with `i` iterations left: chunks and
`sum_size`.  `none`: undefined behaviour, that is a read outside the input (109, 115), an underrun (122),
or an overrun of the chunk's buffer (131, 134). -/
def partLoop (s : Str) (C : Nat) : Nat → Nat → Option (List Str × Nat)
  | 0, sum => some ([], sum)
  | i + 1, sum =>
    let head := ((ltrim s ++ [NUL]).drop sum).take C                         -- 109
    if lead s + sum + C > s.length + 1 then none
    else if sum + C ≤ s.length then                                          -- 113
      match findCut head.reverse (s.drop (sum + C)) with
      | none => none
      | some ext =>
        if ext.length ≥ MAX_EXTENSION then none
        else if sum + C + ext.length + C ≥ s.length then                     -- 136
          some ([cText (head ++ ext)], sum + C + ext.length)
        else (partLoop s C i (sum + C + ext.length)).map fun r => (cText (head ++ ext) :: r.1, r.2)
    else if sum + C + C ≥ s.length then some ([cText head], sum + C)
    else (partLoop s C i (sum + C)).map fun r => (cText head :: r.1, r.2)

/-- `partitionInputStream`, path_processor.h:92-149: the `num_chunk` chunks, `none` in the list for a NULL
pointer. -/
def partition (cores : Nat) (s : Str) : Option (List (Option Str)) :=
  if cores = 0 then none                                                     -- division by zero, 99
  else
    match partLoop s (s.length / cores + 1) (cores - 1) 0 with
    | none => none
    | some (cs, sum) =>
      if sum < s.length then                                                 -- 140
        if substringOOB s s.length then none
        else some (cs.map some ++ [some (substring s sum s.length)])
      else some (cs.map some ++ [none])                                      -- 145

/-- `MAX_EXTENSION` of file_partition.c:8. -/
def MAX_FILE_EXTENSION : Nat := 1000

/-- State of the loop of `partitionFile`: chunks so far, file position, look-ahead character (`none` for
`ch == -1`), `sum_size`, undefined behaviour met. -/
structure FP where
  chunks : List Str
  pos : Nat
  ch : Option Char
  sum : Nat
  ub : Bool
deriving DecidableEq, Repr

/-- The look-ahead character and the `n - 1` characters after it, or the next `n` characters:
file_partition.c:33-42 and 76-89 (files contain no NUL, so `strcat` copies all of `buff`). -/
def FP.read (file : Str) (p : FP) (n : Nat) : Str × Nat :=
  match p.ch with
  | some c => (c :: (file.drop p.pos).take (n - 1), p.pos + ((file.drop p.pos).take (n - 1)).length)
  | none => ((file.drop p.pos).take n, p.pos + ((file.drop p.pos).take n).length)

/-- One iteration, file_partition.c:32-68. -/
def FP.iter (file : Str) (C : Nat) (p : FP) : FP :=
  let (head, pos) := p.read file C
  let ext := extend head.reverse (file.drop pos)
  let rest := (file.drop pos).drop ext.length
  { chunks := p.chunks ++ [head ++ ext]
    pos := pos + ext.length + (if rest.isEmpty then 0 else 1)
    ch := match rest with
      | [] => none
      | c :: _ => if isEofByte c then none else some c
    sum := p.sum + C + ext.length
    ub := p.ub || decide (head.length < C) || extendUnder head.reverse (file.drop pos) ||
      decide (ext.length ≥ MAX_FILE_EXTENSION) }

/-- The loop, file_partition.c:30-70, with `i` iterations left. -/
def FP.loop (file : Str) (C : Nat) : Nat → FP → FP
  | 0, p => p
  | i + 1, p =>
    let p := p.iter file C
    if p.sum + C ≥ file.length then p else FP.loop file C i p

/-- `partitionFile`, file_partition.c:10-96: the `num_chunk` chunks (`none`: a NULL pointer) and whether
undefined behaviour was met.  The last chunk is allocated with `remain_size` bytes (75) but gets
`remain_size + 1` (83-84, 88); without a remainder `stream[i]` is counted as a chunk (92), outside the
array if `i == num_core`. -/
def partitionFile (cores : Nat) (file : Str) : List (Option Str) × Bool :=
  let p := FP.loop file (file.length / cores + 1) (cores - 1) ⟨[], 0, none, 0, decide (cores = 0)⟩
  if p.sum < file.length then (p.chunks.map some ++ [some (p.read file (file.length - p.sum)).1], true)
  else (p.chunks.map some ++ [none], p.ub || decide (p.chunks.length ≥ cores))

end JPS
