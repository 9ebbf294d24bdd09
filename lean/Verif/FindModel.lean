import Mathlib.Data.List.Basic
import Mathlib.Data.Rat.Defs
import Mathlib.Algebra.Order.Ring.Unbundled.Rat

/-! Finding a model or a subcircuit by its name (claim C86): `CARD::find_in_my_scope`,
`find_in_parent_scope`, `find_looking_out` (lib/e_card.cc:109-189), `COMPONENT::find_model` with its bins
(lib/e_compon.cc:874-934), the copy a subcircuit instance gets of its definition
(`CARD_LIST::shallow_copy`, lib/e_cardlist.cc:507-519), the search for the definition when an instance is
expanded (`DEV_SUBCKT::expand`, lib/d_subckt.cc:217-237) and for a prototype when a line inside a
definition is read (`LANGUAGE::find_proto`, lib/u_lang.cc:45-62), and the size limits of the MOS models
(apps/d_mos_base.model:39-48).

Not modelled: what the cards contain beyond their names, kinds and validity tests; assertions; the text
of the messages; labels with a zero byte inside. -/

namespace Gnucap.Find

abbrev Name := List Char

/-- `CKT_BASE::operator!=`, lib/e_base.cc:172-179, turned round: `strcasecmp` or `strcmp` is zero. -/
def same (ci : Bool) (a b : Name) : Bool := if ci then a.map Char.toLower == b.map Char.toLower else a == b

/-- The cards in a list.  `D` is what a model's validity test looks at in the device that asks. -/
inductive Card (D : Type) where
  /-- a `MODEL_CARD`; `valid` is its `is_valid`, include/e_model.h:70 and what modelgen writes
  (modelgen/mg_out_model.cc:678-699) -/
  | model (label : Name) (valid : D → Bool)
  /-- a device that is no subcircuit instance (`is_device`, include/e_compon.h:186) -/
  | device (label : Name)
  /-- a subcircuit instance, with the name of its subcircuit -/
  | inst (label : Name) (of : Name)
  /-- a `DEV_SUBCKT_PROTO`, lib/d_subckt.cc:86-133: a definition, with the list inside -/
  | proto (label : Name) (body : List (Card D))
  /-- anything else: comments and dot cards -/
  | other (label : Name)

namespace Card
variable {D : Type}

def label : Card D → Name
  | model l _ => l
  | device l => l
  | inst l _ => l
  | proto l _ => l
  | other l => l

/-- `is_device() || dynamic_cast<MODEL_CARD*>`, lib/e_cardlist.cc:513; `DEV_SUBCKT_PROTO::is_device` is
false, lib/d_subckt.cc:103. -/
def copied : Card D → Bool
  | model _ _ => true
  | device _ => true
  | inst _ _ => true
  | proto _ _ => false
  | other _ => false

/-- `m && m->is_valid(this)`, lib/e_compon.cc:901-902. -/
def validFor (d : D) : Card D → Bool
  | model _ v => v d
  | _ => false

end Card

variable {D : Type}

/-- `CARD_LIST::find_`, include/e_cardlist.h:97-98, lib/e_cardlist.cc:96-100, `find_ptr`,
include/l_stlextra.h:42-49: the first card with that label. -/
def find (ci : Bool) (cards : List (Card D)) (n : Name) : Option (Card D) :=
  cards.find? (fun c => same ci c.label n)

/-- A scope that a card can be in: the list, and what the list is a copy of (`_parent`, set by
`shallow_copy`, lib/e_cardlist.cc:510; none for the root list). -/
structure Level (D : Type) where
  cards : List (Card D)
  parent : Option (List (Card D))

/-- The list an instance gets: `CARD_LIST(model, owner, …)`, lib/e_cardlist.cc:40-57, with
`shallow_copy`, 507-519. -/
def expanded (body : List (Card D)) : Level D := ⟨body.filter Card.copied, some body⟩

/-- `CARD::scope`, lib/e_card.cc:91-107: the list the owner holds, or the root list.  A place is the chain
of the lists of the instances around it, the innermost first. -/
def scopeOf (root : List (Card D)) : List (Level D) → Level D
  | [] => ⟨root, none⟩
  | l :: _ => l

/-- `find_in_my_scope`, lib/e_card.cc:114-145; `none` is the exception. -/
def findMy (ci : Bool) (root : List (Card D)) (chain : List (Level D)) (n : Name) : Option (Card D) :=
  find ci (scopeOf root chain).cards n

/-- `find_in_parent_scope`, lib/e_card.cc:153-164. -/
def findParent (ci : Bool) (root : List (Card D)) (chain : List (Level D)) (n : Name) : Option (Card D) :=
  find ci ((scopeOf root chain).parent.getD (scopeOf root chain).cards) n

/-- `find_looking_out`, lib/e_card.cc:170-189, for a card that does not make its own scope: the owner of
a card is the instance whose list it is in, and that one is one place further out. -/
def findOut (ci : Bool) (root : List (Card D)) : List (Level D) → Name → Option (Card D)
  | [], n => findParent ci root [] n
  | l :: r, n =>
    match findParent ci root (l :: r) n with
    | some c => some c
    | none => findOut ci root r n

/-- `find_looking_out` from a definition while its body is read (`find_proto`, lib/u_lang.cc:45-62, with
the definition as `Scope`): its scope is the list inside (lib/d_subckt.cc:105-106), which is no copy; it has
no owner, wherever it stands (`CMD_SUBCKT`, apps/lang_spice.cc:863-873, sets none), so after its own list
comes the root list (lib/e_card.cc:177-182). -/
def findProto (ci : Bool) (root body : List (Card D)) (n : Name) : Option (Card D) :=
  match find ci body n with
  | some c => some c
  | none => find ci root n

/-- What becomes of an instance when it is expanded. -/
inductive Entered (D : Type) where
  | ok (chain : List (Level D))
  | mismatch
  | cantFind

/-- `DEV_SUBCKT::expand`, lib/d_subckt.cc:222-250, for an instance at `chain` of the subcircuit `n`: the
chain for the cards in its list. -/
def enter (ci : Bool) (root : List (Card D)) (chain : List (Level D)) (n : Name) : Entered D :=
  match findOut ci root chain n with
  | none => .cantFind
  | some (.proto _ body) => .ok (expanded body :: chain)
  | some _ => .mismatch

/-- `modelname + '.' + to_string(k)`, lib/e_compon.cc:893. -/
def binName (m : Name) (k : ℕ) : Name := m ++ '.' :: Nat.toDigits 10 k

/-- The loop over the bins, lib/e_compon.cc:890-908: `k` is `bin_count`.  The first argument bounds the
number of turns. -/
def bins (ci : Bool) (cards : List (Card D)) (d : D) (m : Name) : ℕ → ℕ → Option (Card D) × ℕ
  | 0, k => (none, k)
  | f + 1, k =>
    match find ci cards (binName m (k + 1)) with
    | none => (none, k + 1)
    | some c => if c.validFor d then (some c, k + 1) else bins ci cards d m f (k + 1)

/-- One scope, lib/e_compon.cc:886-909: the plain name, else the bins.  With the plain name `bin_count`
stays what it was.  A list of `n` cards has no more than `n` bins, so `n + 1` turns are all
(`Find.bins_end`). -/
def oneScope (ci : Bool) (cards : List (Card D)) (d : D) (m : Name) (k : ℕ) : Option (Card D) × ℕ :=
  match find ci cards m with
  | some c => (some c, k)
  | none => bins ci cards d m (cards.length + 1) 0

/-- The loop over the scopes, lib/e_compon.cc:884-910. -/
def scopes (ci : Bool) (d : D) (m : Name) : List (List (Card D)) → ℕ → Option (Card D) × ℕ
  | [], k => (none, k)
  | s :: r, k =>
    match oneScope ci s d m k with
    | (some c, k') => (some c, k')
    | (none, k') => scopes ci d m r k'

/-- What `find_model` comes to. -/
inductive Found (D : Type) where
  /-- a model; `warn` says that it was "using anyway" -/
  | ok (c : Card D) (warn : Bool)
  | missingName
  | cantFind
  | noBins
  | mismatch

/-- `COMPONENT::find_model`, lib/e_compon.cc:874-934.  `Scope->find_in_my_scope` for `this`, its owner
and so on looks at the lists of the chain and then at the root list. -/
def findModel (ci : Bool) (root : List (Card D)) (chain : List (Level D)) (d : D) (m : Name) : Found D :=
  if m = [] then .missingName
  else
    match scopes ci d m (chain.map Level.cards ++ [root]) 0 with
    | (none, k) => if k ≤ 1 then .cantFind else .noBins
    | (some c, _) =>
      match c with
      | .model l v => .ok (.model l v) (!v d)
      | _ => .mismatch

/-- `validate` of the MOS models, apps/d_mos_base.model:39-48: `none` is a limit that was not given (zero
or infinity).  A device is its length and width. -/
structure Limits where
  lmin : Option ℚ
  lmax : Option ℚ
  wmin : Option ℚ
  wmax : Option ℚ

def Limits.test (r : Limits) (d : ℚ × ℚ) : Bool :=
  r.lmin.getD 0 ≤ d.1 && (r.lmax.all fun x => d.1 ≤ x) && r.wmin.getD 0 ≤ d.2 && (r.wmax.all fun x => d.2 ≤ x)

end Gnucap.Find
