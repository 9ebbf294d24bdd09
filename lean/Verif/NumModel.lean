import Verif.ScanModel
import Mathlib.Algebra.Order.Floor.Ring
import Mathlib.Data.Rat.Floor

/-!
# Reading and printing numbers (model of `CS::ctof`, `ctoi`, `ctou`: ap_convert.cc; `ftos`: l_ftos.cc)

Numbers are rational: no rounding, no overflow to infinity, no NaN.  `int` overflow is the outcome `ub`.
-/
namespace Gnucap.Num
open Gnucap.Scan

/-- `OPT::units` (u_opt.h) -/
inductive Units where
  | si | spice
deriving DecidableEq, Repr

/-- `is_digit` (ap.h:114) -/
def isDigit (c : Char) : Bool := 48 ≤ c.toNat && c.toNat ≤ 57
/-- `ctoc() - '0'` -/
def digitVal (c : Char) : ℕ := c.toNat - 48
/-- `is_float` (ap.h:116) -/
def isFloat (c : Char) : Bool := isDigit c || c == '+' || c == '-' || c == '.'
/-- `is_alpha` (ap.h:118): `isalpha(toascii(c))` -/
def isAlpha (c : Char) : Bool :=
  (65 ≤ c.toNat % 128 && c.toNat % 128 ≤ 90) || (97 ≤ c.toNat % 128 && c.toNat % 128 ≤ 122)

/-- `skip1` (ap_skip.cc:71-80): the text after one character of the set, if there is one -/
def skip1 (set : List Char) : List Char → Option (List Char)
  | [] => none
  | c :: r => if c ∈ set then some r else none

/-- an optional sign: `if (skip1("-")) sign = -1; else skip1("+");` (ap_convert.cc:275-279, 293-297) -/
def sign (s : List Char) : Bool × List Char :=
  match skip1 ['-'] s with
  | some r => (true, r)
  | none => match skip1 ['+'] s with
    | some r => (false, r)
    | none => (false, s)

/-- `while (is_digit()) val = 10.0 * val + (ctoc()-'0')` (ap_convert.cc:281-283) -/
def digits (val : ℚ) : List Char → ℚ × List Char
  | [] => (val, [])
  | c :: r => if isDigit c then digits (10 * val + digitVal c) r else (val, c :: r)

/-- the digits after the point (ap_convert.cc:286-289) -/
def fracDigits (val power : ℚ) : List Char → ℚ × ℚ × List Char
  | [] => (val, power, [])
  | c :: r => if isDigit c then fracDigits (10 * val + digitVal c) (power * (1 / 10)) r else (val, power, c :: r)

/-- largest `int` -/
def intMax : ℕ := 2147483647

/-- the digits of the exponent (ap_convert.cc:298-299); `none`: `int` overflow -/
def expDigits (expo : ℕ) : List Char → Option (ℕ × List Char)
  | [] => some (expo, [])
  | c :: r => if isDigit c then (if intMax < 10 * expo + digitVal c then none else expDigits (10 * expo + digitVal c) r) else some (expo, c :: r)

/-- exponent or scale letter (ap_convert.cc:291-338): factor and text after it -/
def scale (u : Units) (s : List Char) : Option (ℚ × List Char) :=
  match skip1 ['e', 'E'] s with
  | some r =>
    let (neg, r) := sign r
    (expDigits 0 r).map fun (e, r) => ((10 : ℚ) ^ (if neg then -(e : ℤ) else (e : ℤ)), r)
  | none =>
  match (if u = .spice then skip1 ['m', 'M'] s else none) with
  | some r =>
    match skip1 ['e', 'E'] r with
    | some r => some (1000000, r)
    | none => match skip1 ['i', 'I'] r with
      | some r => some (254 / 10000000, r)
      | none => some (1 / 1000, r)
  | none =>
  match skip1 ['M'] s with
  | some r => some (1000000, r)
  | none => match skip1 ['m'] s with
  | some r => some (1 / 1000, r)
  | none => match skip1 ['u', 'U'] s with
  | some r => some (1 / 1000000, r)
  | none => match skip1 ['n', 'N'] s with
  | some r => some (1 / 1000000000, r)
  | none => match skip1 ['p'] s with
  | some r => some (1 / 1000000000000, r)
  | none => match skip1 ['P'] s with
  | some r => some (if u = .si then 1000000000000000 else 1 / 1000000000000, r)
  | none => match skip1 ['f', 'F'] s with
  | some r => some (1 / 1000000000000000, r)
  | none => match skip1 ['a', 'A'] s with
  | some r => some (1 / 1000000000000000000, r)
  | none => match skip1 ['k', 'K'] s with
  | some r => some (1000, r)
  | none => match skip1 ['g', 'G'] s with
  | some r => some (1000000000, r)
  | none => match skip1 ['t', 'T'] s with
  | some r => some (1000000000000, r)
  | none => match skip1 ['%'] s with
  | some r => some (1 / 100, r)
  | none => some (1, s)

/-- what a conversion delivers: a value and the text after it (`_ok` true), no value (`_ok` false), undefined behaviour -/
inductive Res (α : Type) where
  | num (v : α) (rest : List Char)
  | none (rest : List Char)
  | ub
deriving DecidableEq, Repr

/-- `CS::ctof` (ap_convert.cc:261-345) -/
def ctof (u : Units) (s : List Char) : Res ℚ :=
  let s := skipbl s
  match s with
  | [] => .none (skipcom s)
  | c :: _ =>
    if isFloat c then
      let (neg, s) := sign s
      let (val, s) := digits 0 s
      let s := (skip1 ['.'] s).getD s
      let (val, power, s) := fracDigits val 1 s
      match scale u s with
      | none => .ub
      | some (f, s) => .num ((if neg then -1 else 1) * val * (power * f)) (skipcom (s.dropWhile isAlpha))
    else .none (skipcom s)

/-- the loop of `ctoi` (ap_convert.cc:182-184) -/
def intDigits (val : ℕ) : List Char → Option (ℕ × List Char)
  | [] => some (val, [])
  | c :: r => if isDigit c then (if intMax < 10 * val + digitVal c then none else intDigits (10 * val + digitVal c) r) else some (val, c :: r)

/-- `CS::ctoi` (ap_convert.cc:169-188): the value, `_ok`, the text after -/
def ctoi (s : List Char) : Option (ℤ × Bool × List Char) :=
  let s := skipbl s
  let (neg, r) := sign s
  match intDigits 0 r with
  | none => none
  | some (v, r) => some ((if neg then -(v : ℤ) else (v : ℤ)), decide ((skipcom r).length < s.length), skipcom r)

/-- `CS::ctou` (ap_convert.cc:195-207); unsigned arithmetic wraps -/
def ctouLoop (val : ℕ) : List Char → ℕ × List Char
  | [] => (val, [])
  | c :: r => if isDigit c then ctouLoop ((10 * val + digitVal c) % 2 ^ 32) r else (val, c :: r)

def ctou (s : List Char) : ℕ × Bool × List Char :=
  let s := skipbl s
  let (v, r) := ctouLoop 0 s
  (v, decide ((skipcom r).length < s.length), skipcom r)

/-! ## printing -/

/-- the buffer of `MAXLENGTH` = 40 characters: what is before and what is from position `nnn` on -/
structure Buf where
  pre : List Char
  suf : List Char
deriving DecidableEq, Repr

def nul : Char := Char.ofNat 0

/-- `str[nnn++] = x`; `none`: beyond the buffer -/
def put (x : Char) (b : Buf) : Option Buf :=
  match b.suf with
  | [] => none
  | _ :: r => some ⟨b.pre ++ [x], r⟩

/-- "build a clean blank string" (l_ftos.cc:98-106) -/
def blank (fw len : ℕ) : Buf :=
  let size := max fw (len + 6)
  ⟨[], List.replicate size ' ' ++ List.replicate (40 - size) nul⟩

/-- `while (num < .001) {num *= 1000.; expo -= 3;}` (l_ftos.cc:157-160); `none`: not finished -/
def scaleSmall : ℕ → ℚ → ℤ → Option (ℚ × ℤ)
  | 0, _, _ => none
  | k + 1, num, expo => if num < 1 / 1000 then scaleSmall k (num * 1000) (expo - 3) else some (num, expo)

/-- `while (num >= 1.) {num *= .001; expo += 3;}` (l_ftos.cc:161-164) -/
def scaleBig : ℕ → ℚ → ℤ → Option (ℚ × ℤ)
  | 0, _, _ => none
  | k + 1, num, expo => if 1 ≤ num then scaleBig k (num * (1 / 1000)) (expo + 3) else some (num, expo)

/-- the amount to add (l_ftos.cc:176-181) -/
def rnd (len : ℕ) (num : ℚ) : ℚ :=
  let r := (1 / 2) / 10 ^ len
  if num < 1 / 100 then r / 100 else if num < 1 / 10 then r / 10 else r

/-- `static_cast<char>(digit + '0')` -/
def dchar (d : ℕ) : Char := Char.ofNat (48 + d)

/-- mantissa in fixed point (l_ftos.cc:195-203) -/
def fixedLoop : ℕ → ℕ → ℚ → ℕ → Buf → Option Buf
  | _, 0, _, _, b => some b
  | 0, _ + 1, _, _, _ => none
  | k + 1, l + 1, num, flg, b =>
    let digit := ⌊num * 10⌋.toNat
    (put (dchar digit) b).bind fun b =>
      fixedLoop k (if flg + digit ≠ 0 then l else l + 1) (num * 10 - digit) (flg + digit) b

/-- mantissa with the point after three places (l_ftos.cc:206-217) -/
def mantLoop : ℕ → ℕ → ℤ → ℚ → ℕ → Buf → Option Buf
  | _, 0, _, _, _, b => some b
  | 0, _ + 1, _, _, _, _ => none
  | k + 1, l + 1, iii, num, flg, b =>
    let digit := ⌊num * 10⌋.toNat
    (if flg + digit ≠ 0 then put (dchar digit) b else some b).bind fun b =>
      (if iii = 0 then put '.' b else some b).bind fun b =>
        mantLoop k (if flg + digit ≠ 0 then l else l + 1) (iii - 1) (num * 10 - digit) (flg + digit) b

/-- suppress trailing zeros (l_ftos.cc:225-229), the text before `nnn` reversed -/
def strip (fw : ℕ) : List Char → List Char → Option Buf
  | [], _ => none
  | c :: r, suf => if c = '0' then strip fw r ((if r.length < fw then ' ' else nul) :: suf) else some ⟨(c :: r).reverse, suf⟩

/-- what `sprintf` makes of the exponent: `"E%+-3d"` below 100, `"E%3u"` from 100 on (l_ftos.cc:240) -/
def expText (expo : ℤ) : List Char :=
  let ds := Nat.toDigits 10 expo.natAbs
  if expo < 100 then
    let t := (if expo < 0 then '-' else '+') :: ds
    'E' :: t ++ List.replicate (3 - t.length) ' '
  else 'E' :: List.replicate (3 - ds.length) ' ' ++ ds

/-- append the exponent (l_ftos.cc:235-255) -/
def suffix (fexp : Bool) (expo : ℤ) (b : Buf) : Option Buf :=
  (if expo = 0 then some b
   else if fexp = true ∨ 10 < expo ∨ expo < -16 then
     match b.suf[4]? with                                                    -- `c = str[nnn+4]`
     | none => none
     | some c =>
       let t := expText expo ++ [nul]
       if b.suf.length < t.length then none
       else
         let suf := t ++ b.suf.drop t.length
         put c ⟨b.pre ++ suf.take 4, suf.drop 4⟩
   else
     match ['f', 'p', 'n', 'u', 'm', ' ', 'K', 'M', 'G', 'T'][((expo + 15) / 3).toNat]? with
     | none => none
     | some c => put c b).bind fun b =>
  if b.pre.getLast? = some 'M' then (put 'e' b).bind (put 'g') else some b

/-- the characters up to the terminating NUL; `none`: there is none -/
def cstr (l : List Char) : Option (List Char) := if nul ∈ l then some (l.takeWhile (· ≠ nul)) else none

/-- the text as the caller sees it: `trim` if `fieldwidth==0` (l_ftos.cc:257-261, l_trim.cc:30-37) -/
def finish (fw : ℕ) (b : Buf) : Option (List Char) :=
  (cstr (b.pre ++ b.suf)).map fun s => if fw = 0 then (s.reverse.dropWhile (fun c => !isGraph c)).reverse else s

/-- write a whole word, `memcpy(str, …)` -/
def puts : List Char → Buf → Option Buf
  | [], b => some b
  | x :: r, b => (put x b).bind (puts r)

/-- DBL_MAX -/
def maxdbl : ℚ := (2 - 1 / 2 ^ 52) * 2 ^ 1023
/-- `BIGBIG`, `NOT_INPUT`, `NOT_VALID` (constant.h:96-100) -/
def bigbig : ℚ := maxdbl * (9247958 / 10000000)
def notInput : ℚ := -maxdbl * (9547658 / 10000000)
def notValid : ℚ := -maxdbl * (9647958 / 10000000)

/-- format flags (l_lib.h:37-42) -/
structure Fmt where
  exp : Bool
  sign : Bool
  fill : Bool
deriving DecidableEq, Repr

/-- the number as printed, from the scaled value on (l_ftos.cc:166-255) -/
def body (fw len : ℕ) (fmt : Fmt) (x : ℚ) (expo : ℤ) (b : Buf) : Option Buf :=
  let len := if (fmt.exp = true ∧ expo < -9) ∨ 10 < expo ∨ expo < -16 then len - 1 else len  -- 167-169
  let len := if len < 3 then len + 1 else len                                          -- 170-173
  let y := x + rnd len x                                                               -- 176-182
  let (y, expo) := if 1 ≤ y then (y * (1 / 1000), expo + 3) else (y, expo)             -- 183-186
  (if expo = -3 then (puts ['0', '.'] b).bind (fixedLoop (len + 3) len y 0)            -- 190-218
   else mantLoop (len + 3) len 2 y 0 b).bind fun b =>
  (if fmt.fill then some b else strip fw b.pre.reverse b.suf).bind fun b =>            -- 224-233
  suffix fmt.exp (if expo = -3 then 0 else expo) b

/-- `ftos` (l_ftos.cc:68-264); `none`: out of the buffer (or the scaling does not end within 400 rounds) -/
def ftos (num : ℚ) (fw len : ℕ) (fmt : Fmt) : Option (List Char) :=
  let len := if len < 3 then 3 else len                                                 -- 74-76
  let len := if 34 < len then 34 else len                                               -- 77-79
  let fw := if 39 < fw then 39 else fw                                                  -- 80-82
  let b := blank fw len
  (if num = notValid then puts [' ', '?', '?'] b
   else if num = notInput then puts [' ', 'N', 'A'] b
   else if bigbig ≤ num then puts [' ', 'I', 'n', 'f'] b
   else if num ≤ -bigbig then puts ['-', 'I', 'n', 'f'] b
   else
     let num := if |num| < 1 / 10 ^ 99 then 0 else num                                  -- 130-132
     if num = 0 then                                                                    -- 136-142
       (puts ([' ', '0', '.'] ++ List.replicate (len - 1) '0') b).bind fun b =>
       (if fmt.fill then some b else strip fw b.pre.reverse b.suf).bind fun b => suffix fmt.exp 0 b
     else
       (put (if num < 0 then '-' else if fmt.sign then '+' else ' ') b).bind fun b =>   -- 144-154
       (scaleSmall 400 |num| (-3)).bind fun (x, e) =>
       (scaleBig 400 x e).bind fun (x, e) => body fw len fmt x e b).bind
  (finish fw)

end Gnucap.Num
