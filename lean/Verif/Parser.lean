import Verif.Ast
/-!
# `JSONPathParser/scanner_j.l` and `JSONPathParser/parser_j.y`: from path text to syntax tree

The scanner is the longest-match scanner flex generates from scanner_j.l.  The parser is the
shift-reduce parser bison generates from parser_j.y: the parser of `Expr` keeps its stack of pending
operators explicitly, because the grammar is ambiguous and its conflicts are resolved by the declared
precedences (parser_j.y:42-47) or, where there are none, by shifting.
-/

set_option autoImplicit false

namespace JPS

/-- Tokens, scanner_j.l:28-90 and parser_j.y:36-38. -/
inductive PTok where
  | star | minus | plus | slash | percent | quest | lbr | rbr | lpar | rpar
  | re | eq | neq | lt | gt | leq | geq | and | or | bang | dollar | at | dot | comma | parent | colon
  | str (s : Str)
  | num (n : Num)
  | name (s : Str)
deriving DecidableEq, Repr

/-! ## Scanner -/

/-- Blanks ignored by the scanner, scanner_j.l:30. -/
def scanBlank (c : Char) : Bool := c = ' ' || c = '\t' || c = Char.ofNat 11 || c = Char.ofNat 12

/-- `NCNameStartChar`, scanner_j.l:21. -/
def nameStart (c : Char) : Bool :=
  ('A' ≤ c && c ≤ 'Z') || c = '_' || ('a' ≤ c && c ≤ 'z')

/-- `[0-9]`, scanner_j.l:22, 25. -/
def isDig (c : Char) : Bool := '0' ≤ c && c ≤ '9'

/-- `NCNameChar`, scanner_j.l:22. -/
def nameChar (c : Char) : Bool := nameStart c || isDig c

/-- Value of a run of digits: the integer part of `atof`, scanner_j.l:8, 87. -/
def digitsVal (s : Str) : Nat := s.foldl (fun n c => 10 * n + (c.toNat - 48)) 0

/-- The rest of a quoted string after its opening quote `q`, scanner_j.l:83, 85: text up to the first
unescaped quote, and what follows it.  `none`: the pattern does not match (no closing quote, or a
backslash before a line end, which `.` does not match).  The text keeps its backslashes
(`makestring`, scanner_j.l:106-111). -/
def scanStr (q : Char) : Str → Option (Str × Str)
  | [] => none
  | c :: r =>
    if c = q then some ([], r)
    else if c = '\\' then
      match r with
      | [] => none
      | d :: r' => if d = '\n' then none else (scanStr q r').map fun x => (c :: d :: x.1, x.2)
    else (scanStr q r).map fun x => (c :: x.1, x.2)

/-- `{Digits}("."{Digits})?`, scanner_j.l:87: longest match at the head of the text. -/
def scanNum (s : Str) : Num × Str :=
  let i := s.takeWhile isDig
  let r := s.dropWhile isDig
  match r with
  | '.' :: d :: r' =>
    if isDig d then
      (⟨false, digitsVal i, (d :: r').takeWhile isDig⟩, (d :: r').dropWhile isDig)
    else (⟨false, digitsVal i, []⟩, r)
  | _ => (⟨false, digitsVal i, []⟩, r)

/-- One action of the scanner on a text that starts with `c`: the token, if any, and the rest
(scanner_j.l:30-92, longest match).  Other characters are reported and skipped (92); a line end
matches no rule and is echoed by flex's default rule. -/
def scanOne (c : Char) (r : Str) : Option PTok × Str :=
  if scanBlank c then (none, r)
  else if c = '*' then (some .star, r)
  else if c = '-' then (some .minus, r)
  else if c = '+' then (some .plus, r)
  else if c = '/' then (some .slash, r)
  else if c = '%' then (some .percent, r)
  else if c = '?' then (some .quest, r)
  else if c = '[' then (some .lbr, r)
  else if c = ']' then (some .rbr, r)
  else if c = '(' then (some .lpar, r)
  else if c = ')' then (some .rpar, r)
  else if c = '=' then
    match r with
    | '~' :: r' => (some .re, r')
    | '=' :: r' => (some .eq, r')
    | _ => (none, r)
  else if c = '!' then
    match r with
    | '=' :: r' => (some .neq, r')
    | _ => (some .bang, r)
  else if c = '<' then
    match r with
    | '=' :: r' => (some .leq, r')
    | _ => (some .lt, r)
  else if c = '>' then
    match r with
    | '=' :: r' => (some .geq, r')
    | _ => (some .gt, r)
  else if c = '&' then
    match r with
    | '&' :: r' => (some .and, r')
    | _ => (none, r)
  else if c = '|' then
    match r with
    | '|' :: r' => (some .or, r')
    | _ => (none, r)
  else if c = '$' then (some .dollar, r)
  else if c = '@' then (some .at, r)
  else if c = '.' then
    match r with
    | '.' :: r' => (some .parent, r')
    | _ => (some .dot, r)
  else if c = ',' then (some .comma, r)
  else if c = ':' then (some .colon, r)
  else if c = '"' || c = '\'' then
    match scanStr c r with
    | some (s, r') => (some (.str s), r')
    | none => (none, r)
  else if isDig c then
    let x := scanNum (c :: r)
    (some (.num x.1), x.2)
  else if nameStart c then (some (.name (c :: r.takeWhile nameChar)), r.dropWhile nameChar)
  else (none, r)

/-- The tokens of a text; `n` bounds the number of actions (each consumes a character). -/
def scanN : Nat → Str → List PTok
  | 0, _ => []
  | _ + 1, [] => []
  | n + 1, c :: r =>
    match scanOne c r with
    | (some t, r') => t :: scanN n r'
    | (none, r') => scanN n r'

/-- `jlex` called until the end of the text, jsonpath_parser.h / parser_j.y:119-129. -/
def scan (s : Str) : List PTok := scanN s.length s

/-! ## Parser -/

/-- Binary operator of a token, `Expr` rules, parser_j.y:79-91. -/
def PTok.op : PTok → Option Op
  | .or => some .or
  | .and => some .and
  | .eq => some .equal
  | .neq => some .neq
  | .lt => some .less
  | .gt => some .greater
  | .leq => some .leq
  | .geq => some .geq
  | .plus => some .add
  | .minus => some .minus
  | .star => some .multiply
  | .slash => some .div
  | .percent => some .mod
  | _ => none

/-- Declared precedence, parser_j.y:42-47; `%` has none. -/
def Op.prec : Op → Option Nat
  | .or => some 1
  | .and => some 1
  | .neq => some 2
  | .leq => some 2
  | .geq => some 2
  | .equal => some 2
  | .less => some 2
  | .greater => some 2
  | .add => some 3
  | .minus => some 3
  | .multiply => some 4
  | .div => some 4
  | .mod => none

/-- Whether the rule `Expr o Expr` is reduced when the next token is the operator `o2`: the
precedence of the rule is that of its operator; equal levels reduce because every level is `%left`;
without a precedence on either side the conflict is resolved by shifting. -/
def Op.reduces (o o2 : Op) : Bool :=
  match o.prec, o2.prec with
  | some p, some q => decide (q ≤ p)
  | _, _ => false

/-- What waits on the parser's stack for the expression being read. -/
inductive Frame where
  /-- `Expr o` -/
  | bin (l : Ast) (o : Op)
  /-- `'!'` -/
  | not
  /-- `'('` of the rule `Expr: '(' Expr ')'` -/
  | paren
deriving DecidableEq, Repr

/-- Reductions before an operator `o` is shifted (parser_j.y:79-92).  `'!' Expr` is reduced unless
the next operator has no precedence (`!` has the highest level of all operators). -/
def reduceOp (o : Op) : List Frame → Ast → List Frame × Ast
  | .bin l o1 :: fs, e => if o1.reduces o then reduceOp o fs (.bin o1 l e) else (.bin l o1 :: fs, e)
  | .not :: fs, e => if o.prec.isSome then reduceOp o fs (.not e) else (.not :: fs, e)
  | fs, e => (fs, e)

/-- Reductions before a `')'` (parser_j.y:79-92): everything up to the opening parenthesis. -/
def reduceAll : List Frame → Ast → List Frame × Ast
  | .bin l o1 :: fs, e => reduceAll fs (.bin o1 l e)
  | .not :: fs, e => reduceAll fs (.not e)
  | fs, e => (fs, e)

/-- The parser inside `'(' Expr ')'` of a predicate (parser_j.y:68-69, 79-98): `fs` are the pending
operators, `cur` the expression read so far (`none`: an operand is expected).  Returns the expression
and the tokens after the closing parenthesis; `none` is a syntax error (`jerror` exits). -/
def exprLoop : List PTok → List Frame → Option Ast → Option (Ast × List PTok)
  | [], _, _ => none
  | .at :: r, fs, none => exprLoop r fs (some .ref)
  | .num n :: r, fs, none => exprLoop r fs (some (.number n))
  | .minus :: .num n :: r, fs, none => exprLoop r fs (some (.number { n with neg := true }))
  | .str s :: r, fs, none => exprLoop r fs (some (.string s))
  | .bang :: r, fs, none => exprLoop r (.not :: fs) none
  | .lpar :: r, fs, none => exprLoop r (.paren :: fs) none
  | _ :: _, _, none => none
  | .dot :: .name s :: r, fs, some e => exprLoop r fs (some (.concat e (.id s)))
  | .dot :: .star :: r, fs, some e => exprLoop r fs (some (.concat e .wildcard))
  | .parent :: .name s :: r, fs, some e => exprLoop r fs (some (.parentConcat e (.id s)))
  | .parent :: .star :: r, fs, some e => exprLoop r fs (some (.parentConcat e .wildcard))
  | .rpar :: r, fs, some e =>
    match reduceAll fs e with
    | ([], e') => some (e', r)
    | (.paren :: fs', e') => exprLoop r fs' (some e')
    | _ => none
  | t :: r, fs, some e =>
    match t.op with
    | some o => exprLoop r (.bin (reduceOp o fs e).2 o :: (reduceOp o fs e).1) none
    | none => none

/-- `Number`, parser_j.y:101-103. -/
def parseNumber : List PTok → Option (Num × List PTok)
  | .num n :: r => some (n, r)
  | .minus :: .num n :: r => some ({ n with neg := true }, r)
  | _ => none

/-- The rest of an `IndexList` whose first part is `l`, parser_j.y:73-77. -/
def indexLoop (l : Ast) : List PTok → Ast × List PTok
  | .comma :: .num n :: r => indexLoop (.concat l (.number n)) r
  | .comma :: .minus :: .num n :: r => indexLoop (.concat l (.number { n with neg := true })) r
  | .comma :: .str s :: r => indexLoop (.concat l (.string s)) r
  | r => (l, r)

/-- `Predicate`, parser_j.y:64-71. -/
def parsePred (ts : List PTok) : Option (Ast × List PTok) :=
  match ts with
  | .colon :: r => (parseNumber r).map fun x => (.range none (some x.1), x.2)
  | .star :: r => some (.wildcard, r)
  | .quest :: .lpar :: r => (exprLoop r [] none).map fun x => (.filter x.1, x.2)
  | .lpar :: r => (exprLoop r [] none).map fun x => (.script x.1, x.2)
  | .str s :: r => some (indexLoop (.string s) r)
  | _ =>
    match parseNumber ts with
    | some (n, .colon :: r) =>
      match parseNumber r with
      | some (m, r') => some (.range (some n) (some m), r')
      | none => some (.range (some n) none, r)
    | some (n, r) => some (indexLoop (.number n) r)
    | none => none

/-- The rest of a `LocationPath` whose first part is `t`, parser_j.y:54-58; `n` bounds the number of
steps (each consumes a token). -/
def stepsLoop : Nat → Ast → List PTok → Option Ast
  | _, t, [] => some t
  | 0, _, _ => none
  | n + 1, t, .dot :: .name s :: r => stepsLoop n (.concat t (.id s)) r
  | n + 1, t, .dot :: .star :: r => stepsLoop n (.concat t .wildcard) r
  | n + 1, t, .parent :: .name s :: r => stepsLoop n (.parentConcat t (.id s)) r
  | n + 1, t, .parent :: .star :: r => stepsLoop n (.parentConcat t .wildcard) r
  | n + 1, t, .lbr :: r =>
    match parsePred r with
    | some (p, .rbr :: r') => stepsLoop n (.predicate t p) r'
    | _ => none
  | _, _, _ => none

/-- `AllPath`, parser_j.y:51-58. -/
def parsePath : List PTok → Option Ast
  | .dollar :: r => stepsLoop r.length .root r
  | _ => none

/-- `analysisJSONPath`, parser_j.y:118-129: the tree of a path text; `none` when the parser exits with
a syntax error. -/
def analysisJSONPath (s : Str) : Option Ast := parsePath (scan s)

end JPS
