import Verif.LoadLemmas

/-!
# What the built in devices reserve in the matrix and what they load (model)

For every device class of `apps/d_*.cc`: the `iwant` calls made by `tr_iwant_matrix` / `ac_iwant_matrix`, and the load calls
made by `tr_load` / `ac_load` (including the ones CCCS and CCVS make from `do_ac`), as `Gnucap.Load.Kind`s.  Node numbers are
matrix numbers `m_()`; ground and unconnected nodes are 0 (`iwant` ignores both 0 and negative numbers, m_matrix.h:471-473).
The diode, the transistors and user subcircuits reserve and load through the elements inside of them (`Card.sub`).
-/
namespace Gnucap.Elem
open Gnucap.Mat Gnucap.Load

/-- `tr_iwant_matrix_passive`, `ac_iwant_matrix_passive` (e_elemnt.cc:285-297, 336-340) -/
def wantPassive (o1 o2 : ℕ) : List (ℕ × ℕ) := [(o1, o2)]

/-- `tr_iwant_matrix_active`, `ac_iwant_matrix_active` (e_elemnt.cc:299-317, 342-350) -/
def wantActive (o1 o2 i1 i2 : ℕ) : List (ℕ × ℕ) := [(o1, i1), (o1, i2), (o2, i1), (o2, i2)]

/-- `tr_iwant_matrix_extended`, `ac_iwant_matrix_extended` (e_elemnt.cc:319-334, 352-367): every node with every earlier
one, in the order of the two loops; `seen` are the nodes `0 .. ii-1`. -/
def wantExtendedFrom (seen : List ℕ) : List ℕ → List (ℕ × ℕ)
  | [] => []
  | n :: rest => seen.map (fun m => (n, m)) ++ wantExtendedFrom (seen ++ [n]) rest

def wantExtended (ns : List ℕ) : List (ℕ × ℕ) := wantExtendedFrom [] ns

/-- The nodes of a polynomial element in the order of `n_(i)`: port 1 is the output (d_poly_g.cc:262-264). -/
def portNodes (o1 o2 : ℕ) : List (ℕ × ℕ) → List ℕ
  | ctl => o1 :: o2 :: ctl.flatMap (fun p => [p.1, p.2])

/-- The built in devices.  `o1 o2` are `n_(OUT1)`, `n_(OUT2)`, `i1 i2` are `n_(IN1)`, `n_(IN2)`. -/
inductive Dev where
  | admittance (o1 o2 : ℕ)              -- d_admit.cc:35-80
  | vccs (o1 o2 i1 i2 : ℕ)              -- d_admit.cc:82-115
  | resistor (o1 o2 : ℕ)                -- d_res.cc
  | capacitor (o1 o2 : ℕ)               -- d_cap.cc:37-75
  | transcap (o1 o2 i1 i2 : ℕ)          -- d_cap.cc:77-104
  | vccap (o1 o2 i1 i2 : ℕ)             -- d_cap.cc:107-136
  | inductor (o1 o2 : ℕ)                -- d_coil.cc, _c_model == false
  | inductorC (o1 o2 j : ℕ)             -- d_coil.cc, _c_model == true: coupled, with a current node
  | mutual (j1 j2 : ℕ)                  -- d_coil.cc: nodes are the current nodes of the two coils (:264-265)
  | currentSource (o1 o2 : ℕ)           -- d_cs.cc
  | voltageSource (o1 o2 : ℕ)           -- d_vs.cc
  | vcvs (o1 o2 i1 i2 : ℕ)              -- d_vcvs.cc
  | vcg (o1 o2 i1 i2 : ℕ)               -- d_vcg.cc
  | vcr (o1 o2 i1 i2 : ℕ)               -- d_vcr.cc
  | cccs (o1 o2 i1 i2 : ℕ)              -- d_cccs.cc; inputs are nodes of the sensed element (e_ccsrc.cc:42-47)
  | ccvs (o1 o2 i1 i2 : ℕ)              -- d_ccvs.cc
  | switch (o1 o2 : ℕ)                  -- d_switch.cc
  | transline (o1 o2 i1 i2 : ℕ)         -- d_trln.cc
  | polyG (o1 o2 : ℕ) (ctl : List (ℕ × ℕ))     -- d_poly_g.cc, ports 2.. are the controlling ones
  | polyCap (o1 o2 : ℕ) (ctl : List (ℕ × ℕ))   -- d_poly_cap.cc
  | meter                               -- d_meter.cc:45-46

/-- `tr_iwant_matrix` -/
def Dev.trWants : Dev → List (ℕ × ℕ)
  | .admittance o1 o2 => wantPassive o1 o2                  -- d_admit.cc:56
  | .vccs o1 o2 i1 i2 => wantActive o1 o2 i1 i2             -- d_admit.cc:92
  | .resistor o1 o2 => wantPassive o1 o2                    -- d_res.cc:50
  | .capacitor o1 o2 => wantPassive o1 o2                   -- d_cap.cc:54
  | .transcap o1 o2 i1 i2 => wantActive o1 o2 i1 i2         -- d_cap.cc:91
  | .vccap o1 o2 i1 i2 => wantExtended [o1, o2, i1, i2]     -- d_cap.cc:123
  | .inductor o1 o2 => wantPassive o1 o2                    -- d_coil.cc:293-294
  | .inductorC o1 o2 j => [(o1, j), (o2, j)]                -- d_coil.cc:302-303
  | .mutual j1 j2 => wantPassive j1 j2                      -- d_coil.cc:124
  | .currentSource _ _ => []                                -- d_cs.cc:51
  | .voltageSource o1 o2 => wantPassive o1 o2               -- d_vs.cc:51
  | .vcvs o1 o2 i1 i2 => wantExtended [o1, o2, i1, i2]      -- d_vcvs.cc:48
  | .vcg o1 o2 i1 i2 => wantExtended [o1, o2, i1, i2]       -- d_vcg.cc:53
  | .vcr o1 o2 i1 i2 => wantExtended [o1, o2, i1, i2]       -- d_vcr.cc:49
  | .cccs o1 o2 i1 i2 => wantActive o1 o2 i1 i2             -- d_cccs.cc:45
  | .ccvs o1 o2 i1 i2 => wantExtended [o1, o2, i1, i2]      -- d_ccvs.cc:44
  | .switch o1 o2 => wantPassive o1 o2                      -- d_switch.cc:76
  | .transline o1 o2 i1 i2 => [(o1, o2), (i1, i2)]          -- d_trln.cc:386-390
  | .polyG o1 o2 ctl => wantExtended (portNodes o1 o2 ctl)  -- d_poly_g.cc:59
  | .polyCap o1 o2 ctl => wantExtended (portNodes o1 o2 ctl) -- d_poly_cap.cc:61
  | .meter => []                                            -- d_meter.cc:45

/-- `tr_load`, each load call with its nodes in the order they are made -/
def Dev.trLoads : Dev → List Kind
  | .admittance o1 o2 => [.passive o1 o2, .source o1 o2]                      -- d_admit.cc:59, e_elemnt.h:322-332
  | .vccs o1 o2 i1 i2 => [.active o1 o2 i1 i2, .source o1 o2]                 -- d_admit.cc:93, e_elemnt.h:344-355
  | .resistor o1 o2 => [.passive o1 o2, .source o1 o2]                        -- d_res.cc:54
  | .capacitor o1 o2 => [.passive o1 o2, .source o1 o2]                       -- d_cap.cc:56
  | .transcap o1 o2 i1 i2 => [.active o1 o2 i1 i2, .source o1 o2]             -- d_cap.cc:92
  | .vccap o1 o2 _ _ => [.passive o1 o2, .source o1 o2]                       -- d_cap.cc:56 (inherited)
  | .inductor o1 o2 => [.passive o1 o2, .source o1 o2]                        -- d_coil.cc:431-432
  | .inductorC o1 o2 j => [.inode o1 o2 j, .diag j, .srcPoint j]              -- d_coil.cc:434-436
  | .mutual j1 j2 => [.couple j1 j2, .source j1 j2, .srcPoint j2, .srcPoint j1] -- d_coil.cc:442-445
  | .currentSource o1 o2 => [.source o1 o2]                                   -- d_cs.cc:54
  | .voltageSource o1 o2 => [.passive o1 o2, .source o1 o2]                   -- d_vs.cc:54
  | .vcvs o1 o2 i1 i2 => [.passive o1 o2, .active o1 o2 i1 i2, .source o1 o2] -- d_vcvs.cc:51
  | .vcg o1 o2 i1 i2 => [.passive o1 o2, .active o1 o2 i1 i2, .source o1 o2]  -- d_vcg.cc:56
  | .vcr o1 o2 i1 i2 => [.passive o1 o2, .active o1 o2 i1 i2, .source o1 o2]  -- d_vcr.cc:52
  | .cccs o1 o2 i1 i2 => [.active o1 o2 i1 i2, .source o1 o2]                 -- d_cccs.cc:49
  | .ccvs o1 o2 i1 i2 => [.passive o1 o2, .active o1 o2 i1 i2, .source o1 o2] -- d_ccvs.cc:48
  | .switch o1 o2 => [.passive o1 o2, .source o1 o2]                          -- d_switch.cc:83
  | .transline o1 o2 i1 i2 =>
    [.passive o1 o2, .passive i1 i2, .source o2 o1, .source i2 i1]            -- d_trln.cc:463-495, + at node 1
  | .polyG o1 o2 ctl =>
    [.passive o1 o2, .source o1 o2] ++ ctl.map (fun p => .active o1 o2 p.1 p.2) -- d_poly_g.cc:191-199
  | .polyCap o1 o2 ctl =>
    [.passive o1 o2, .source o1 o2] ++ ctl.map (fun p => .active o1 o2 p.1 p.2) -- d_poly_cap.cc:211-222
  | .meter => []

/-- `ac_iwant_matrix` -/
def Dev.acWants : Dev → List (ℕ × ℕ)
  | .admittance o1 o2 => wantPassive o1 o2                  -- d_admit.cc:63
  | .vccs o1 o2 i1 i2 => wantActive o1 o2 i1 i2             -- d_admit.cc:97
  | .resistor o1 o2 => wantPassive o1 o2                    -- d_res.cc:60
  | .capacitor o1 o2 => wantPassive o1 o2                   -- d_cap.cc:61
  | .transcap o1 o2 i1 i2 => wantActive o1 o2 i1 i2         -- d_cap.cc:95
  | .vccap o1 o2 i1 i2 => wantExtended [o1, o2, i1, i2]     -- d_cap.cc:127
  | .inductor o1 o2 => wantPassive o1 o2                    -- d_coil.cc:489-490
  | .inductorC o1 o2 j => [(o1, j), (o2, j)]                -- d_coil.cc:498-499
  | .mutual j1 j2 => wantPassive j1 j2                      -- d_coil.cc:138
  | .currentSource _ _ => []                                -- d_cs.cc:58
  | .voltageSource o1 o2 => wantPassive o1 o2               -- d_vs.cc:58
  | .vcvs o1 o2 i1 i2 => wantExtended [o1, o2, i1, i2]      -- d_vcvs.cc:55
  | .vcg o1 o2 i1 i2 => wantExtended [o1, o2, i1, i2]       -- d_vcg.cc:60
  | .vcr o1 o2 i1 i2 => wantExtended [o1, o2, i1, i2]       -- d_vcr.cc:57
  | .cccs o1 o2 i1 i2 => wantActive o1 o2 i1 i2             -- d_cccs.cc:50
  | .ccvs o1 o2 i1 i2 => wantExtended [o1, o2, i1, i2]      -- d_ccvs.cc:49
  | .switch o1 o2 => wantPassive o1 o2                      -- d_switch.cc:88
  | .transline o1 o2 i1 i2 => wantExtended [o1, o2, i1, i2] -- d_trln.cc:105
  | .polyG o1 o2 ctl => wantExtended (portNodes o1 o2 ctl)  -- d_poly_g.cc:66
  | .polyCap o1 o2 ctl => wantExtended (portNodes o1 o2 ctl) -- d_poly_cap.cc:70
  | .meter => []                                            -- d_meter.cc:46

/-- The loads made while the AC equations are built: those of `do_ac` first, then `ac_load`. -/
def Dev.acLoads : Dev → List Kind
  | .admittance o1 o2 => [.passive o1 o2]                                     -- d_admit.cc:66
  | .vccs o1 o2 i1 i2 => [.active o1 o2 i1 i2]                                -- d_admit.cc:98
  | .resistor o1 o2 => [.passive o1 o2]                                       -- d_res.cc:63
  | .capacitor o1 o2 => [.passive o1 o2]                                      -- d_cap.cc:64
  | .transcap o1 o2 i1 i2 => [.active o1 o2 i1 i2]                            -- d_cap.cc:96
  | .vccap o1 o2 _ _ => [.passive o1 o2]                                      -- d_cap.cc:64 (inherited)
  | .inductor o1 o2 => [.passive o1 o2]                                       -- d_coil.cc:532-533
  | .inductorC o1 o2 j => [.inode o1 o2 j, .diag j]                           -- d_coil.cc:535-536
  | .mutual j1 j2 => [.couple j1 j2]                                          -- d_coil.cc:542
  | .currentSource o1 o2 => [.source o1 o2]                                   -- d_cs.cc:61
  | .voltageSource o1 o2 => [.passive o1 o2, .source o1 o2]                   -- d_vs.cc:61
  | .vcvs o1 o2 i1 i2 => [.passive o1 o2, .active o1 o2 i1 i2]                -- d_vcvs.cc:58
  | .vcg o1 o2 i1 i2 => [.passive o1 o2, .active o1 o2 i1 i2]                 -- d_vcg.cc:63
  | .vcr o1 o2 i1 i2 => [.passive o1 o2, .active o1 o2 i1 i2]                 -- d_vcr.cc:60
  | .cccs o1 o2 i1 i2 => [.source o1 o2, .active o1 o2 i1 i2]                 -- d_cccs.cc:148, 53
  | .ccvs o1 o2 i1 i2 => [.passive o1 o2, .source o1 o2, .active o1 o2 i1 i2] -- d_ccvs.cc:123, 132, 52
  | .switch o1 o2 => [.passive o1 o2]                                         -- d_switch.cc:91
  | .transline o1 o2 i1 i2 =>
    [.passive o1 o2, .passive i1 i2, .active o1 o2 i2 i1, .active i1 i2 o2 o1] -- d_trln.cc:534-544
  | .polyG o1 o2 ctl => .passive o1 o2 :: ctl.map (fun p => .active o1 o2 p.1 p.2) -- d_poly_g.cc:218-225
  | .polyCap o1 o2 ctl => .passive o1 o2 :: ctl.map (fun p => .active o1 o2 p.1 p.2) -- d_poly_cap.cc:241-248
  | .meter => []

/-- A circuit: a list of cards, some of which own further lists.  `logic` is `DEV_LOGIC`: it drives its output node itself
in digital mode and through its subcircuit in analog mode.  `other` is anything that is not a device. -/
inductive Card where
  | dev (d : Dev)
  | sub (cs : List Card)
  | logic (out : ℕ) (cs : List Card)
  | other

/-- `CARD_LIST::tr_iwant_matrix`, `COMPONENT::tr_iwant_matrix`, `DEV_LOGIC::tr_iwant_matrix`
(e_cardlist.cc:219-226, e_compon.cc:623-633, d_logic.cc:297-304) -/
def Card.trWants : Card → List (ℕ × ℕ)
  | .dev d => d.trWants
  | .sub cs => cs.flatMap Card.trWants
  | .logic _ cs => cs.flatMap Card.trWants
  | .other => []

/-- `CARD_LIST::ac_iwant_matrix` and the same for components and logic
(e_cardlist.cc:419-426, e_compon.cc:635-645, d_logic.cc:672-678) -/
def Card.acWants : Card → List (ℕ × ℕ)
  | .dev d => d.acWants
  | .sub cs => cs.flatMap Card.acWants
  | .logic _ cs => cs.flatMap Card.acWants
  | .other => []

/-- All loads a circuit can make during DC and transient analysis (e_cardlist.cc `tr_load`, d_logic.cc:499-510: the digital
output drives its node through a conductance to ground and a source). -/
def Card.trLoads : Card → List Kind
  | .dev d => d.trLoads
  | .sub cs => cs.flatMap Card.trLoads
  | .logic out cs => [.diag out, .srcPoint out] ++ cs.flatMap Card.trLoads
  | .other => []

/-- All loads a circuit makes during AC analysis (e_cardlist.cc:454-461, d_logic.cc:92). -/
def Card.acLoads : Card → List Kind
  | .dev d => d.acLoads
  | .sub cs => cs.flatMap Card.acLoads
  | .logic _ cs => cs.flatMap Card.acLoads
  | .other => []

/-- The matrix cells `m(r,c)`, `d(r,r)` a load call writes (m_matrix.h:707-806). -/
def writes : Kind → List (ℕ × ℕ)
  | .passive i j =>                                                      -- load_symmetric (:752-771)
    (if j > 0 then (j, j) :: (if i > 0 then [(i, i), (i, j), (j, i)] else []) else if i > 0 then [(i, i)] else [])
  | .active r1 r2 c1 c2 =>                                               -- load_asymmetric (:778-806)
    (if r1 > 0 then (if c1 > 0 then [(r1, c1)] else []) ++ (if c2 > 0 then [(r1, c2)] else []) else []) ++
    (if r2 > 0 then (if c1 > 0 then [(r2, c1)] else []) ++ (if c2 > 0 then [(r2, c2)] else []) else [])
  | .couple i j => if j > 0 then if i > 0 then [(i, j), (j, i)] else [] else []  -- load_couple (:733-745)
  | .inode o1 o2 j =>
    (if j > 0 then if o1 > 0 then [(o1, j), (j, o1)] else [] else []) ++
    (if j > 0 then if o2 > 0 then [(o2, j), (j, o2)] else [] else [])
  | .diag i => if i > 0 then [(i, i)] else []                            -- load_diagonal_point (:721-728)
  | .point i j => if i > 0 ∧ j > 0 then [(i, j)] else []                 -- load_point (:707-717)
  | .source _ _ => []
  | .srcPoint _ => []

/-- Every node number in a load call. -/
def kindNodes : Kind → List ℕ
  | .passive i j => [i, j]
  | .active r1 r2 c1 c2 => [r1, r2, c1, c2]
  | .couple i j => [i, j]
  | .inode o1 o2 j => [o1, o2, j]
  | .diag i => [i]
  | .point i j => [i, j]
  | .source i j => [i, j]
  | .srcPoint i => [i]

section
variable {F : Type _} [Field F] [DecidableEq F]

/-- `AC::solve` (s_ac.cc:234-252): clear matrix and right side, let everything load (`vals` are the values, mfactor included,
in the order of the loads), factor in place, substitute. -/
def acSolve (n : ℕ) (low : ℕ → ℕ) (minp : F) (loads : List (Kind × F)) (m : Loaded F) : (ℕ → F) × Loaded F :=
  let zero : Loaded F × (ℕ → F) := (clearWith n 0 m, fun _ => 0)
  let s := loads.foldl (fun (s : Loaded F × (ℕ → F)) kd => stamp kd.1 kd.2 s.1 s.2) zero
  let lu := luInplace n low minp s.1.a
  (fbsub n low lu s.2, { s.1 with a := lu })

/-- `port_impedance` (e_aux.h:29-55) on the factors `lu`: inject 1 at `n1`, -1 at `n2`, substitute, take the difference and
take the parallel admittance out again.  `1/0` is left out of consideration (see `portImpedance_spec`). -/
def portImpedance (n : ℕ) (low : ℕ → ℕ) (lu : Arr F) (n1 n2 : ℕ) (parallel : F) : F :=
  let zapit : ℕ → F := fun _ => 0
  let zapit := if n1 ≠ 0 then vset zapit n1 1 else zapit
  let zapit := if n2 ≠ 0 then vset zapit n2 (-1) else zapit
  let z := fbsub n low lu zapit
  let raw := z n1 - z n2
  if parallel ≠ 0 then 1 / (1 / raw - parallel) else raw
end

/-- What the probe `Z(element)` takes for the element's own admittance: `mfactor()*(_m0.c1+_loss0)` in DC and transient
(e_elemnt.cc:432-433), for every element alike. -/
def zParallel {F : Type _} [Field F] (mf c1 loss0 : F) : F := mf * (c1 + loss0)

/-- ... and in AC (e_elemnt.cc:453, 471-472) -/
def zParallelAc {F : Type _} [Field F] (mf acg loss0 : F) (isSource : Bool) : F :=
  mf * (if isSource then loss0 else acg + loss0)

end Gnucap.Elem
