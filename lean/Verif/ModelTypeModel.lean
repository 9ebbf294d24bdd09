import Mathlib.Data.Nat.Digits.Defs
import Mathlib.Data.List.Basic

/-!
# The type and level of a `.model` line (C110)

Which kind of card a line makes and what its type sets: `CMD_MODEL` (lang_spice.cc:817-862), the dispatcher (l_dispatcher.h:87-99), and what modelgen generates for
`dev_type`, `set_dev_type` and the names installed (mg_out_model.cc:24-57, 215-289).  Simplified: names are compared as whole words (`Umatch` with a blank at the end,
applied to one word); the text behind `level=` is given (where it is found is left out); integer overflow left out.
-/
namespace Gnucap.ModelType

abbrev Name := List Char

/-- names compared (`Umatch` with `OPT::case_insensitive`, ap_match.cc:52-60) -/
def same (ci : Bool) (a b : Name) : Bool := if ci then a.map Char.toLower == b.map Char.toLower else a == b

/-- a model of the generator: its keys with what they set, public then private, and `hide_base` -/
structure Level (P : Type _) where
  pub : List (Name × P)
  priv : List (Name × P)
  hide : Bool

/-- the keys in the order they are tried (mg_out_model.cc:222-236, 260-277) -/
def Level.keys {P : Type _} (l : Level P) : List (Name × P) := l.pub ++ l.priv

variable {P : Type _} [DecidableEq P]

/-- `set_dev_type` (mg_out_model.cc:253-289) of a model and those it inherits from; without a match the card stays as it is (e_card.cc:248-255) -/
def setType (ci : Bool) (t : Name) (v : P) : List (Level P) → P
  | [] => v
  | l :: c => match l.keys.find? fun k => same ci t k.1 with
    | some k => k.2
    | none => if l.hide then v else setType ci t v c

/-- `dev_type` (mg_out_model.cc:215-251) -/
def devType (v : P) : List (Level P) → Option Name
  | [] => none
  | l :: c => match l.keys.find? fun k => k.2 == v with
    | some k => some k.1
    | none => devType v c

/-- a registry of models: what is installed under a name, the chain of each, what a new card is set to -/
structure Reg (P : Type _) where
  at_ : Name → Option ℕ
  chain : ℕ → List (Level P)
  new : ℕ → P

/-- `model_dispatcher[...]` (l_dispatcher.h:87-99) -/
def Reg.look (r : Reg P) (ci : Bool) (t : Name) : Option ℕ :=
  match r.at_ t with
  | some m => some m
  | none => if ci then r.at_ (t.map Char.toLower) else none

/-- the digits at the front of a text -/
def digits : List Char → List ℕ
  | [] => []
  | c :: r => if 48 ≤ c.toNat ∧ c.toNat ≤ 57 then (c.toNat - 48) :: digits r else []

/-- `skipbl` (ap_skip.cc:35-41): up to a character that is printed -/
def blanks : List Char → List Char
  | [] => []
  | c :: r => if 33 ≤ c.toNat ∧ c.toNat ≤ 126 then c :: r else blanks r

/-- the number of `ctoi`, behind the blanks (ap_convert.cc:176-187) -/
def number : List Char → ℤ
  | '-' :: r => -((digits r).foldl (fun v d => 10 * v + d) 0 : ℕ)
  | '+' :: r => ((digits r).foldl (fun v d => 10 * v + d) 0 : ℕ)
  | s => ((digits s).foldl (fun v d => 10 * v + d) 0 : ℕ)

/-- `CS::ctoi` (ap_convert.cc:169-188) -/
def ctoi (s : List Char) : ℤ := number (blanks s)

/-- a digit -/
def dig (d : ℕ) : Char := Char.ofNat (48 + d)

/-- `sprintf(buf, "%u", level)` (lang_spice.cc:836), 32 bits -/
def printU (z : ℤ) : List Char :=
  let n := (z % 4294967296).toNat
  if n = 0 then [dig 0] else ((Nat.digits 10 n).map dig).reverse

/-- the name looked for (lang_spice.cc:821-841): the type, and the level if the line has one -/
def baseName (t : Name) : Option (List Char) → Name
  | none => t
  | some s => t ++ printU (ctoi s)

/-- the line (lang_spice.cc:817-862): the kind of card and what it is set to; `none`: refused -/
def Reg.read (r : Reg P) (ci : Bool) (t : Name) (level : Option (List Char)) : Option (ℕ × P) :=
  match r.look ci (baseName t level) with
  | none => none
  | some m => some (m, setType ci t (r.new m) (r.chain m))

/-! ## the models built in -/

inductive Pol
  | n
  | p
deriving DecidableEq

/-- d_mos_base.model:33-38 -/
def mosBase : Level Pol := ⟨[], [(['n','m','o','s'], .n), (['p','m','o','s'], .p)], true⟩

/-- d_mos123.model:33-34 -/
def mos123 : Level Pol := ⟨[], [], false⟩

/-- the level of a mosfet, with the digits of its names -/
def mos (ds : List (List Char)) : Level Pol :=
  ⟨ds.flatMap fun d => [(['n','m','o','s'] ++ d, .n), (['p','m','o','s'] ++ d, .p)], [], false⟩

/-- the digits of the names of each mosfet (d_mos1.model:32-37, d_mos2.model:34-37, d_mos3.model:33-36, d_mos4.model:35-38, d_mos5.model:35-38, d_mos6.model:33-36,
d_mos7.model:81-84, d_mos8.model:89-94) -/
def mosNames : ℕ → List (List Char)
  | 1 => [['1'], []] | 2 => [['2']] | 3 => [['3']] | 4 => [['4']] | 5 => [['5']] | 6 => [['6']] | 7 => [['7']] | 8 => [['8'], ['4', '9']]
  | _ => []

/-- chains: 1 to 8 mosfets, 9 bipolar (d_bjt.model:205-214), 10 diode (d_diode.model:367-372) -/
def chains (m : ℕ) : List (Level Pol) :=
  if m ∈ [1, 2, 3, 6] then [mos (mosNames m), mos123, mosBase]
  else if m ∈ [4, 5, 7, 8] then [mos (mosNames m), mosBase]
  else if m = 9 then [⟨[(['n','p','n'], .n), (['p','n','p'], .p), (['n','p','n','1'], .n), (['p','n','p','1'], .p)], [], true⟩]
  else if m = 10 then [⟨[(['d'], .n)], [], true⟩]
  else []

/-- the registry: every public key -/
def builtIn : Reg Pol where
  at_ t := [1, 2, 3, 4, 5, 6, 7, 8, 9, 10].find? fun m => match chains m with
    | [] => false
    | l :: _ => (l.pub.map Prod.fst).contains t
  chain := chains
  new _ := .n

end Gnucap.ModelType
