import Verif.Stream
/-!
# `lexing.c`

Pointers into the stream are modelled by offsets from `begin_stream`; `s` is the stream
without its NUL, so `end_stream` is offset `s.length`.
-/

namespace JPS

/-- `MAX_SIZE_PRIMITIVE`, lexing.h:18: size of `lexer->content`.  (`sub1`, lexing.c:8 and 22,
has 40000 bytes and is copied to `content` in every path that fills it.) -/
def MAX_SIZE_PRIMITIVE : Nat := 4000

/-- The varying part of `Lexer`, lexing.h:21-29.  `lex_state` is 0 at every call: it is
initialised to 0 (lexing.h:39) and every return but the last stores 0.
`ub` records an overrun of `content`. -/
structure Lexer where
  cur : Nat        -- current_pointer
  cstart : Nat     -- current_start
  nxt : Nat        -- next_start
  ub : Bool
deriving DecidableEq, Repr

/-- `initLexer`, lexing.h:32-41. -/
def Lexer.init : Lexer := ⟨0, 0, 0, false⟩

/-- Token returned by `nextToken`; `eof` is `END`. -/
inductive RTok where
  | lcb | rcb | lb | rb | com | ky (c : Str) | pri (c : Str) | eof
deriving DecidableEq, Repr

/-- The test of lexing.c:89. -/
def isAlnum (c : Char) : Bool :=
  (decide ('0' ≤ c) && decide (c ≤ '9')) || (decide ('a' ≤ c) && decide (c ≤ 'z')) ||
    (decide ('A' ≤ c) && decide (c ≤ 'Z'))

/-- `' '` or `'\t'`: skipped after a string, lexing.c:123. -/
def isBlank (c : Char) : Bool := c == ' ' || c == '\t'

/-- Number of consecutive backslashes ending directly before offset `p`: the variable `count`
of lexing.c:105-112 (0 when the test of line 105 fails).  The C loop has no lower bound; it
stops at the opening quote at the latest. -/
def backslashes (s : Str) (p : Nat) : Nat := ((s.take p).reverse.takeWhile (· == '\\')).length

/-- `case 1`, lexing.c:115-156: a string has been found that starts with the quote at `start`
and ends with the quote at `p`; `rest` is the stream after that quote. -/
def stringFound (s : Str) (rest : Str) (p start : Nat) (lx : Lexer) : RTok × Lexer :=
  let sub1 := substring (s.drop start) 1 (p - start)                       -- 116-118
  let sp := (rest.takeWhile isBlank).length                                -- 123-129
  let p := p + sp
  match rest[sp]? with
  | some ':' =>                                                            -- 130-143
    (.ky sub1,
     { cur := p + 1, cstart := lx.cur + 1, nxt := p + 2,
       ub := lx.ub || decide (strcopyBytes sub1.length > MAX_SIZE_PRIMITIVE) })
  | _ =>                                                                   -- 144-156
    (.pri ('"' :: sub1 ++ ['"']),
     { cur := lx.cur, cstart := lx.cur + 1, nxt := p + 1,
       -- line 149 writes index `length + 3`
       ub := lx.ub || decide (sub1.length + 4 > MAX_SIZE_PRIMITIVE) })

/-- `case 2`, lexing.c:169-193: a primitive ends before the terminator at `p`.  The test
`p[0]=='"'` of line 177 is never true in this branch. -/
def primitiveFound (s : Str) (p start tokp : Nat) (lx : Lexer) : RTok × Lexer :=
  let tempcount := p - start
  let sub1 :=
    if s[tokp + tempcount - 1]? = some ',' then substring (s.drop tokp) 0 (tempcount - 1)
    else substring (s.drop tokp) 0 tempcount
  (.pri sub1,
   { cur := p + 1, cstart := p + 2, nxt := p,
     ub := lx.ub || decide (strcopyBytes sub1.length > MAX_SIZE_PRIMITIVE) })

/-- Return of a one-character token at `p`, lexing.c:30-74:
`token_pointer = start + (p - start + 1)`. -/
def charFound (t : RTok) (p : Nat) (lx : Lexer) : RTok × Lexer :=
  (t, { cur := p + 1, cstart := p + 1, nxt := p + 1, ub := lx.ub })

/-- The loop of `nextToken`, lexing.c:23-205, at offset `p` with the rest of the stream as
first explicit argument; `st` is `state`.  When the loop runs to the end of the stream the
lexer is left unchanged and `END` is returned (206-207). -/
def lexLoop (s : Str) (lx : Lexer) : Str → (p start tokp st : Nat) → RTok × Lexer
  | [], _, _, _, _ => (.eof, lx)
  | c :: rest, p, start, tokp, 0 =>
    if c = '{' then charFound .lcb p lx
    else if c = '}' then charFound .rcb p lx
    else if c = '[' then charFound .lb p lx
    else if c = ']' then charFound .rb p lx
    else if c = ',' then charFound .com p lx
    else if c = '"' then lexLoop s lx rest (p + 1) p p 1                   -- 75-80
    else if c = ' ' ∨ c = '\t' then lexLoop s lx rest (p + 1) (p + 1) (p + 1) 0   -- 81-87
    else if isAlnum c then lexLoop s lx rest (p + 1) start tokp 2          -- 89
    else lexLoop s lx rest (p + 1) (p + 1) (p + 1) 0                       -- 90-96
  | c :: rest, p, start, tokp, 1 =>
    if c = '"' then
      if backslashes s p % 2 = 1 then lexLoop s lx rest (p + 1) start tokp 1   -- 113
      else stringFound s rest p start lx
    else lexLoop s lx rest (p + 1) start tokp 1
  | c :: rest, p, start, tokp, st + 2 =>
    if c = '}' ∨ c = ']' ∨ c = ',' ∨ c = ' ' ∨ c = '\t' then primitiveFound s p start tokp lx
    else lexLoop s lx rest (p + 1) start tokp (st + 2)

/-- `nextToken`, lexing.c:10-208. -/
def nextToken (s : Str) (lx : Lexer) : RTok × Lexer :=
  lexLoop s lx (s.drop lx.nxt) lx.nxt lx.cur lx.nxt 0

/-- The view of a token the automaton uses: bracket tokens with
`lexer.next_start - lexer.begin_stream`. -/
def RTok.toTok (t : RTok) (lx : Lexer) : Option Tok :=
  match t with
  | .lcb => some (.lcb lx.nxt)
  | .rcb => some (.rcb lx.nxt)
  | .lb => some (.lb lx.nxt)
  | .rb => some (.rb lx.nxt)
  | .com => some .com
  | .ky c => some (.ky c)
  | .pri c => some (.pri c)
  | .eof => none

/-- `executeAutomaton`, streaming_automaton.c:132-330: read tokens until `END`, applying one
transition rule per token.  `fuel` bounds the number of tokens; `execAutomaton` supplies
enough (theorem `exec_fuel`). -/
def execLoop (d : QDfa) (s : Str) : Nat → Lexer → SA → SA
  | 0, _, a => a
  | fuel + 1, lx, a =>
    let (t, lx') := nextToken s lx
    match t.toTok lx' with
    | none => { a with ub := a.ub || lx'.ub }
    | some t => execLoop d s fuel lx' (step d s { a with ub := a.ub || lx'.ub } t)

/-- `executeAutomaton(sa, json_stream, CLOSE)`. -/
def execAutomaton (d : QDfa) (s : Str) (a : SA) : SA := execLoop d s (s.length + 1) Lexer.init a

/-- All tokens of a stream from a lexer state, as read by the loop of `executeAutomaton`. -/
def lexFrom (s : Str) : Nat → Lexer → List Tok
  | 0, _ => []
  | fuel + 1, lx =>
    let (t, lx') := nextToken s lx
    match t.toTok lx' with
    | none => []
    | some t => t :: lexFrom s fuel lx'

/-- All tokens of a stream. -/
def lexAll (s : Str) : List Tok := lexFrom s (s.length + 1) Lexer.init

end JPS
