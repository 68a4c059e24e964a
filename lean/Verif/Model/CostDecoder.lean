import Verif.Model.Basic

/-!
# Cost codes: `/repo/skwdro/base/cost_decoder.py`
-/

namespace Skwdro

/-! ## Python's `float(str)` (external: CPython)

Grammar of the builtin: optional blanks, optional sign, then `inf`/`infinity`/`nan` (any case) or a decimal literal
`digits [. digits] [e [sign] digits]` where a single `_` may separate two digits.
Simplifications: ASCII digits and blanks only; the value is the exact rational (no rounding to binary64, no overflow
of huge literals to `inf`). -/

/-- blanks removed by `float()` at both ends -/
def isBlank (c : Char) : Bool := c == ' ' || c == '\t' || c == '\n' || c == '\r' || c == '\x0b' || c == '\x0c'

def stripBlanks (s : PyStr) : PyStr := ((s.dropWhile isBlank).reverse.dropWhile isBlank).reverse

def digitVal (c : Char) : ℕ := c.toNat - '0'.toNat

/-- Reads a maximal run of digits (with single underscores between digits) after at least one digit was read;
`acc` is the number read so far and `len` how many digits were read. -/
def scanMore (acc len : ℕ) : PyStr → ℕ × ℕ × PyStr
  | [] => (acc, len, [])
  | [c] => if c.isDigit then (10 * acc + digitVal c, len + 1, []) else (acc, len, [c])
  | c :: d :: r =>
      if c.isDigit then scanMore (10 * acc + digitVal c) (len + 1) (d :: r)
      else if c == '_' && d.isDigit then scanMore (10 * acc + digitVal d) (len + 1) r
      else (acc, len, c :: d :: r)

/-- Reads a possibly empty run of digits: value, number of digits, rest. -/
def scanDigits : PyStr → ℕ × ℕ × PyStr
  | [] => (0, 0, [])
  | c :: r => if c.isDigit then scanMore (digitVal c) 1 r else (0, 0, c :: r)

/-- Optional exponent part; `none` when malformed or when something is left over. -/
def scanExp : PyStr → Option ℤ
  | [] => some 0
  | c :: r =>
      if c == 'e' || c == 'E' then
        let (neg, r) := match r with
          | '-' :: r => (true, r)
          | '+' :: r => (false, r)
          | r => (false, r)
        match scanDigits r with
        | (v, l, []) => if l = 0 then none else some (if neg then -(v : ℤ) else v)
        | _ => none
      else none

/-- Optional fractional part: value, number of digits, rest. -/
def scanFrac : PyStr → ℕ × ℕ × PyStr
  | '.' :: r => scanDigits r
  | r => (0, 0, r)

/-- Unsigned decimal literal. -/
def scanDecimal (s : PyStr) : Option ℚ :=
  let i := scanDigits s
  let f := scanFrac i.2.2
  if i.2.1 + f.2.1 = 0 then none
  else match scanExp f.2.2 with
    | none => none
    | some e => some (((i.1 : ℚ) + (f.1 : ℚ) / 10 ^ f.2.1) * 10 ^ e)

def lowerStr (s : PyStr) : PyStr := s.map Char.toLower

/-- Unsigned literal, special values included. -/
def scanUnsigned (s : PyStr) : Option (XNum ℚ) :=
  if lowerStr s = "inf".toList ∨ lowerStr s = "infinity".toList then some .pinf
  else if lowerStr s = "nan".toList then some .nan
  else (scanDecimal s).map .fin

def negX : XNum ℚ → XNum ℚ
  | .nan => .nan
  | .ninf => .pinf
  | .fin a => .fin (-a)
  | .pinf => .ninf

/-- `float(s)`; a malformed literal raises `ValueError`. -/
def pyFloat (s : PyStr) : Except PyErr (XNum ℚ) :=
  let r := match stripBlanks s with
    | '-' :: r => (scanUnsigned r).map negX
    | '+' :: r => scanUnsigned r
    | r => scanUnsigned r
  match r with
  | some x => .ok x
  | none => .error .valueError

/-- `s.split('-')`: never empty, adjacent dashes give empty fields. -/
def splitDash : PyStr → List PyStr
  | [] => [[]]
  | c :: r =>
      if c = '-' then [] :: splitDash r
      else match splitDash r with
        | h :: t => (c :: h) :: t
        | [] => [[c]]

/-! ## Cost objects as far as decoding is concerned -/

/-- The two cost classes a code can select (`ptNormCost`, `ptNormLabelCost`, cost_decoder.py:5-9). -/
inductive CostKind | normCost | normLabelCost
  deriving DecidableEq, Repr

/-- A cost instance: class, norm order `p`, `power`, label weight `kappa` (meaningful for `normLabelCost` only, kept
`none` for `normCost`), display name (`none` = the class default name). -/
structure CostObj where
  kind : CostKind
  p : XNum ℚ
  power : XNum ℚ
  kappa : Option (XNum ℚ)
  name : Option PyStr
  deriving DecidableEq

/-- cost_decoder.py:11 -/
def DEFAULT_KAPPA : XNum ℚ := .fin 100000000

/-- `NormCost.__init__`, costs_torch/normcost.py:13-28: no validation. -/
def mkNormCost (p power : XNum ℚ) (name : Option PyStr) : CostObj :=
  ⟨.normCost, p, power, none, name⟩

/-- `NormLabelCost.__init__`, costs_torch/normlabelcost.py:19-40: asserts `kappa >= 0` (false for NaN). -/
def mkNormLabelCost (p power kappa : XNum ℚ) (name : Option PyStr) : Except PyErr CostObj :=
  if kappa.ge0 then .ok ⟨.normLabelCost, p, power, some kappa, name⟩ else .error .assertionError

/-- `float(splitted[4]) if len(splitted) >= 5 else DEFAULT_KAPPA`, cost_decoder.py:42; the argument is `splitted[4:]`. -/
def kappaField : List PyStr → Except PyErr (XNum ℚ)
  | k :: _ => pyFloat k
  | [] => .ok DEFAULT_KAPPA

/-- `cost_from_str`, cost_decoder.py:40-60. -/
def cost_from_str (code : PyStr) : Except PyErr CostObj :=
  let splitted := splitDash code
  match splitted with
  | engine_ :: id_ :: power_ :: type_ :: rest => do
      let kappa ← kappaField rest
      if engine_ = "t".toList then
        if id_ = "NC".toList then do
          let t ← pyFloat type_
          let w ← pyFloat power_
          .ok (mkNormCost t w (some code))
        else if id_ = "NLC".toList then do
          let t ← pyFloat type_
          let w ← pyFloat power_
          mkNormLabelCost t w kappa (some code)
        else .error .valueError
      else .error .valueError
  | _ => .error .valueError -- "not enough values to unpack"

/-- `ParsedCost`, cost_decoder.py:63-79 -/
structure ParsedCost where
  engine : PyStr
  id : PyStr
  power : XNum ℚ
  type : XNum ℚ
  kappa : XNum ℚ
  deriving DecidableEq

/-- `ParsedCost.can_imp_samp`, cost_decoder.py:71-72 -/
def ParsedCost.can_imp_samp (c : ParsedCost) : Bool := c.power.eqLit 2 && c.type.eqLit 2

/-- `parse_code_torch`, cost_decoder.py:82-120 -/
def parse_code_torch (code : Option PyStr) (has_labels : Bool) : Except PyErr ParsedCost :=
  match code with
  | none => .ok ⟨"t".toList, if has_labels then "NLC".toList else "NC".toList, .fin 2, .fin 2, DEFAULT_KAPPA⟩
  | some code =>
    match splitDash code with
    | [engine_, id_, power_, type_] =>
        if engine_ = "t".toList then do
          let w ← pyFloat power_
          let t ← pyFloat type_
          .ok ⟨engine_, id_, w, t, DEFAULT_KAPPA⟩
        else .error .assertionError
    | [id_, power_, type_] => do
        let w ← pyFloat power_
        let t ← pyFloat type_
        .ok ⟨"t".toList, id_, w, t, DEFAULT_KAPPA⟩
    | [engine_, id_, power_, type_, kappa_] => do
        let k ← pyFloat kappa_
        let w ← pyFloat power_
        let t ← pyFloat type_
        .ok ⟨engine_, id_, w, t, k⟩
    | _ => .error .valueError

/-- `cost_from_parse_torch`, cost_decoder.py:123-153 -/
def cost_from_parse_torch (parsed : ParsedCost) : Except PyErr CostObj :=
  if parsed.id = "NC".toList then .ok (mkNormCost parsed.type parsed.power none)
  else if parsed.id = "NLC".toList then mkNormLabelCost parsed.type parsed.power parsed.kappa none
  else .error .valueError

end Skwdro
