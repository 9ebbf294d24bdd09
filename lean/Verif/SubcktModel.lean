import Verif.SimDataModel

/-!
# Subcircuits: the header of a definition, the parts inside, instances and their nodes (model)

A definition is kept as a prototype: a list of cards whose terminals are numbers local to the definition.  An instance
copies the list, builds a table from local numbers to circuit wide numbers, renumbers the copies and expands them in turn.
-/
namespace Gnucap.Subckt
open Gnucap.Sim

/-- a node, part or subcircuit name -/
abbrev Name := List Char

/-- One line of a definition or of the circuit, as far as nodes are concerned: an element or device with its terminals and
the names of the nodes it makes for itself when it is expanded (mg_out_dev.cc:256-290, d_coil.cc:230-241; none for the
plain elements), or an instance of a subcircuit. -/
inductive Line where
  | dev (nodes : List Name) (inner : List Name)
  | inst (of : Name) (nodes : List Name)
  deriving DecidableEq

/-- The text of a definition: its name, the port names of the header, and the body. -/
structure Sub where
  name : Name
  ports : List Name
  body : List Line

/-- A card after parsing: `node_t::e_()` of each terminal, the number in the node map of its scope (e_node.h:126-128). -/
inductive Card where
  | dev (e : List ℕ) (inner : List Name)
  | inst (of : Name) (e : List ℕ)
  deriving DecidableEq

/-- A card of a circuit being simulated: `node_t::_ttt` of each terminal, the circuit wide number (e_node.h:113). -/
inductive TCard where
  | dev (t : List ℕ) (inner : List Name)
  | inst (of : Name) (t : List ℕ)
  deriving DecidableEq

/-! ## Parsing -/

/-- The loop of `parse_ports` (lang_spice.cc:234-281) for the header of a definition (`all_new`), on the words of the line
without parentheses and reserved words.  `index` is where the next port goes, `net` is `_net_nodes`, raised by
`set_port_by_index` (e_compon.cc:473-486) before the checks; `num` is what `count_ports` answered.
The loop of the Verilog reader (lang_verilog.cc:336-363) makes the same checks and takes the index back. -/
def headerLoop (ci : Bool) (num : ℕ) : List Name → ℕ → ℕ → NodeMap → ℕ × NodeMap
  | [], _, net, m => (net, m)
  | w :: ws, index, net, m =>
    if num ≤ index then (net, m)
    else
      let r := newNode ci m w
      let net1 := if net < index + 1 then index + 1 else net
      if r.2 = 0 then headerLoop ci num ws index net1 r.1
      else if howMany r.1 ≠ index + 1 then headerLoop ci num ws index net1 r.1
      else headerLoop ci num ws (index + 1) net1 r.1

/-- `PORTS_PER_SUBCKT` (d_subckt.cc:44) -/
def portsMax : ℕ := 100

/-- The header of a definition (lang_spice.cc:537-547); `DEV_SUBCKT_PROTO` starts with no ports and an empty map
(d_subckt.cc:136-146).  The first of the answers is `net_nodes()`. -/
def header (ci : Bool) (ports : List Name) : ℕ × NodeMap := headerLoop ci (min ports.length portsMax) ports 0 0 nmInit

/-- `set_port_by_index` for each terminal of a part (lang_spice.cc:262, e_compon.cc:473-486, e_node.cc:180-190) -/
def setPorts (ci : Bool) : List Name → NodeMap → List ℕ × NodeMap
  | [], m => ([], m)
  | w :: ws, m =>
    let r := newNode ci m w
    let q := setPorts ci ws r.1
    (r.2 :: q.1, q.2)

/-- `parse_module_body` (lang_spice.cc:555-573): the parts in order -/
def parseBody (ci : Bool) : List Line → NodeMap → List Card × NodeMap
  | [], m => ([], m)
  | .dev ns k :: ls, m =>
    let r := setPorts ci ns m
    let q := parseBody ci ls r.2
    (.dev r.1 k :: q.1, q.2)
  | .inst o ns :: ls, m =>
    let r := setPorts ci ns m
    let q := parseBody ci ls r.2
    (.inst o r.1 :: q.1, q.2)

/-- `DEV_SUBCKT_PROTO`: `_net_nodes`, and the node map and cards of its `subckt()` -/
structure Proto where
  net : ℕ
  nm : NodeMap
  cards : List Card

/-- `parse_module` (lang_spice.cc:533-553) -/
def parseSub (ci : Bool) (s : Sub) : Proto :=
  let h := header ci s.ports
  let b := parseBody ci s.body h.2
  { net := h.1, nm := b.2, cards := b.1 }

/-! ## Expansion -/

/-- How expansion can go wrong. -/
inductive Err where
  | noSub            -- Exception_Cant_Find, Exception_Type_Mismatch (d_subckt.cc:225-232)
  | needMore         -- "need more nodes" (e_node.cc:212)
  | overrun          -- the table is written past its end (e_cardlist.cc:549-553); undefined behaviour
  | deep             -- deeper than the allowance; the program has none and runs out of stack
  deriving DecidableEq

/-- The table made by `map_subckt_nodes` (e_cardlist.cc:533-562): ground, the ports as the instance connects them (a
terminal that was not given is `INVALID_NODE`), then a new number for each other node of the definition
(`newnode_subckt`, u_sim_data.h:124).  `junk` is the contents of the new array; `tot` is `_total_nodes`. -/
def makeMap (p : Proto) (t : List ℕ) (tot : ℕ) (junk : ℕ → Option ℕ) : (ℕ → Option ℕ) × ℕ :=
  let m0 := upd junk 0 (some 0)
  let m1 := forRange 1 (p.net + 1) (fun i m => upd m i t[i - 1]?) m0
  forRange (p.net + 1) (howMany p.nm + 1) (fun i (s : (ℕ → Option ℕ) × ℕ) => (upd s.1 i (some (s.2 + 1)), s.2 + 1)) (m1, tot)

/-- `map_subckt_node` for each terminal of a card (e_cardlist.cc:574-582, e_node.cc:205-219) -/
def mapTerms (m : ℕ → Option ℕ) : List ℕ → Except Err (List ℕ)
  | [] => .ok []
  | e :: es =>
    match m e with
    | none => .error .needMore
    | some t =>
      match mapTerms m es with
      | .error x => .error x
      | .ok ts => .ok (t :: ts)

/-- the cards of the copy, renumbered (e_cardlist.cc:571-586) -/
def mapCards (m : ℕ → Option ℕ) : List Card → Except Err (List TCard)
  | [] => .ok []
  | .dev es k :: cs =>
    match mapTerms m es with
    | .error x => .error x
    | .ok ts =>
      match mapCards m cs with
      | .error x => .error x
      | .ok l => .ok (.dev ts k :: l)
  | .inst o es :: cs =>
    match mapTerms m es with
    | .error x => .error x
    | .ok ts =>
      match mapCards m cs with
      | .error x => .error x
      | .ok l => .ok (.inst o ts :: l)

/-- `new_subckt` (e_card.cc:204-209, e_cardlist.cc:40-57): the renumbered copy and the new `_total_nodes` -/
def newSubckt (p : Proto) (t : List ℕ) (tot : ℕ) : Except Err (List TCard × ℕ) :=
  if howMany p.nm < p.net then .error .overrun
  else
    let r := makeMap p t tot (fun _ => none)
    match mapCards r.1 p.cards with
    | .error x => .error x
    | .ok l => .ok (l, r.2)

/-- `newnode_model` (u_sim_data.h:125, e_node.cc:198-203) for `k` nodes in turn -/
def newModel : ℕ → ℕ → List ℕ × ℕ
  | 0, tot => ([], tot)
  | k + 1, tot =>
    let r := newModel k (tot + 1)
    ((tot + 1) :: r.1, r.2)

/-- The definition an instance refers to: the first of that name (d_subckt.cc:225, e_card.cc:170-189), all definitions
being at the top level. -/
def findSub {α : Type _} (nm : α → Name) (lib : List α) (of : Name) : Option α := lib.find? (fun s => decide (nm s = of))

/-- A definition after parsing, with its name. -/
structure Defn where
  name : Name
  proto : Proto

/-- `CARD_LIST::expand` (e_cardlist.cc:166-185) for the cards of one list: a device makes its own nodes, an instance is
replaced by its copy, which is expanded before going on (d_subckt.cc:217-251).  The answer is the numbers of the terminals
(own nodes last) of each device met, in the order met, and the final `_total_nodes`. -/
def expand (lib : List Defn) : ℕ → List TCard → ℕ → Except Err (List (List ℕ) × ℕ)
  | _, [], tot => .ok ([], tot)
  | f, .dev t inner :: cs, tot =>
    let r := newModel inner.length tot
    match expand lib f cs r.2 with
    | .error x => .error x
    | .ok q => .ok ((t ++ r.1) :: q.1, q.2)
  | 0, .inst _ _ :: _, _ => .error .deep
  | f + 1, .inst o t :: cs, tot =>
    match findSub Defn.name lib o with
    | none => .error .noSub
    | some d =>
      match newSubckt d.proto t tot with
      | .error x => .error x
      | .ok r =>
        match expand lib f r.1 r.2 with
        | .error x => .error x
        | .ok q1 =>
          match expand lib (f + 1) cs q1.2 with
          | .error x => .error x
          | .ok q2 => .ok (q1.1 ++ q2.1, q2.2)
  termination_by f cs => (f, cs.length)

/-- A card of the circuit itself: its terminals have their numbers from parsing (e_node.cc:188). -/
def rootCard : Card → TCard
  | .dev e k => .dev e k
  | .inst o e => .inst o e

/-- Reading a circuit with its definitions and expanding it for the first time (u_sim_data.cc:269-272): `_total_nodes`
starts as the number of names in the circuit. -/
def elaborate (ci : Bool) (lib : List Sub) (root : List Line) (depth : ℕ) : Except Err (List (List ℕ) × ℕ) :=
  let b := parseBody ci root nmInit
  expand (lib.map fun s => ⟨s.name, parseSub ci s⟩) depth (b.1.map rootCard) (howMany b.2)

/-! ## Expanding again -/

/-- A device of the circuit itself, as kept between runs: its terminals, the nodes it makes (with the number each has, when
it has one), and whether it makes new ones every time (d_coil.cc:230-241) or only when it has none
(mg_out_dev.cc:268-288). -/
structure RDev where
  e : List ℕ
  inner : List Name
  own : Option (List ℕ)
  always : Bool
  deriving DecidableEq

/-- A card of the circuit itself, as kept between runs. -/
inductive RCard where
  | dev (d : RDev)
  | inst (of : Name) (e : List ℕ)
  deriving DecidableEq

/-- `new_model_node` at the top level (e_node.cc:198-203): the name goes into the map of the circuit, the number comes from
`newnode_model`. -/
def newRoot (ci : Bool) : List Name → NodeMap → ℕ → List ℕ × NodeMap × ℕ
  | [], m, tot => ([], m, tot)
  | w :: ws, m, tot =>
    let r := newRoot ci ws (newNode ci m w).1 (tot + 1)
    ((tot + 1) :: r.1, r.2)

/-- The own nodes of a device of the circuit itself: kept when it has them already (mg_out_dev.cc:268-288), except in a coil
(d_coil.cc:230-241). -/
def makeOwn (ci : Bool) (d : RDev) (m : NodeMap) (tot : ℕ) : List ℕ × NodeMap × ℕ :=
  if d.always then newRoot ci d.inner m tot
  else
    match d.own with
    | some o => (o, m, tot)
    | none => newRoot ci d.inner m tot

/-- `CARD_LIST::expand` for the circuit itself: as `expand`, but the cards stay for the next time. -/
def rexpand (ci : Bool) (lib : List Defn) (f : ℕ) : List RCard → NodeMap → ℕ →
    Except Err (List (List ℕ) × List RCard × NodeMap × ℕ)
  | [], m, tot => .ok ([], [], m, tot)
  | .dev d :: cs, m, tot =>
    let r := makeOwn ci d m tot
    match rexpand ci lib f cs r.2.1 r.2.2 with
    | .error x => .error x
    | .ok q => .ok ((d.e ++ r.1) :: q.1, .dev { d with own := some r.1 } :: q.2.1, q.2.2)
  | .inst o e :: cs, m, tot =>
    match expand lib f [.inst o e] tot with
    | .error x => .error x
    | .ok q1 =>
      match rexpand ci lib f cs m q1.2 with
      | .error x => .error x
      | .ok q2 => .ok (q1.1 ++ q2.1, .inst o e :: q2.2.1, q2.2.2)

/-- `SIM_DATA::init` after `uninit` (u_sim_data.cc:269-272): `_total_nodes` starts as the number of names now in the map. -/
def rinit (ci : Bool) (lib : List Defn) (f : ℕ) (cs : List RCard) (m : NodeMap) :
    Except Err (List (List ℕ) × List RCard × NodeMap × ℕ) := rexpand ci lib f cs m (howMany m)

end Gnucap.Subckt
