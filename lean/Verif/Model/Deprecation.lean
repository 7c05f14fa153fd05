import Verif.Model.Lattice
import Verif.Model.SR

/-! Deprecated interfaces: netket/utils/deprecation.py, netket/graph/lattice.py:147-156, 727-765, netket/hilbert/_deprecations.py,
netket/hilbert/fock.py:204-220, netket/optimizer/sr/deprecations.py, netket/nn/activation.py:64-81.

A call is a function of the warning filter (which messages are turned into exceptions, `python -W error`) and of the state of the program;
it gives an outcome, the new state and the messages that were issued.  Texts are lists of characters.  Simplified: `textwrap.dedent` is a
parameter; a warning that is shown once per location only is counted each time. -/

namespace Verif.Depr
open Verif.Hilbert (Err)
open Verif.Lat (Lattice)

/-- the text of a warning (deprecation.py:30-32). -/
abbrev Msg := List Char

/-- how a call ends: with a value, an exception, or with the warning raised as an exception (deprecation.py:36). -/
inductive Out (α : Type)
  | ok (a : α)
  | err (e : Err)
  | warning (m : Msg)
  deriving DecidableEq

/-- a call: the filter, the state before; outcome, state after, messages (deprecation.py:34-37). -/
abbrev Act (σ α : Type) := (Msg → Bool) → σ → Out α × σ × List Msg

/-- `warnings.warn(message, category=FutureWarning)` (deprecation.py:36, 52, 59). -/
def warn {σ : Type} (m : Msg) : Act σ Unit := fun raises s => if raises m then (.warning m, s, []) else (.ok (), s, [m])

/-- two statements one after the other (deprecation.py:36-37): an exception ends the function. -/
def andThen {σ α β : Type} (a : Act σ α) (b : α → Act σ β) : Act σ β := fun raises s =>
  match a raises s with
  | (.ok x, s1, w1) =>
    let r := b x raises s1
    (r.1, r.2.1, w1 ++ r.2.2)
  | (.err e, s1, w1) => (.err e, s1, w1)
  | (.warning m, s1, w1) => (.warning m, s1, w1)

/-- a function without warnings and without effect on the state (lattice.py:727-765). -/
def pureAct {σ α : Type} (r : Except Err α) : Act σ α := fun _ s =>
  match r with
  | .ok a => (.ok a, s, [])
  | .error e => (.err e, s, [])

/-- deprecation.py:29-32: the message of `deprecated(reason)` for a class or function. -/
def message (dedent : Msg → Msg) (isClass : Bool) (name : Msg) (reason : Option Msg) : Msg :=
  let m := "Call to deprecated ".toList ++ (if isClass then "class".toList else "function".toList) ++ " '".toList ++ name ++ "'".toList
  match reason with
  | none => m
  | some r => m ++ " (".toList ++ dedent r ++ ")".toList

/-- deprecation.py:22-41: `deprecated(reason)(func)`. -/
def deprecated {σ A α : Type} (dedent : Msg → Msg) (isClass : Bool) (name : Msg) (reason : Option Msg) (f : A → Act σ α) : A → Act σ α :=
  fun a => andThen (warn (message dedent isClass name reason)) fun _ => f a

/-- deprecation.py:60-64: the message of `deprecated_new_name`. -/
def renamedMessage (dedent : Msg → Msg) (name new : Msg) : Msg :=
  name ++ " has been renamed to ".toList ++ dedent new ++
    ". The old name is now deprecated and will be removed in the next minor version.\nPlease update your code.".toList

/-- deprecation.py:55-72: `deprecated_new_name(message)(func)`. -/
def deprecatedNewName {σ A α : Type} (dedent : Msg → Msg) (name new : Msg) (f : A → Act σ α) : A → Act σ α :=
  fun a => andThen (warn (renamedMessage dedent name new)) fun _ => f a

/-- lattice.py:149-152: the reason of the deprecated methods of a lattice. -/
def latticeReason (name alternative : Msg) : Msg :=
  name ++ " is deprecated and may be removed in the future. You can use `".toList ++ alternative ++ "`` instead.".toList

/-- lattice.py:147-156: `deprecated(alternative)(fn)`. -/
def latticeDeprecated {σ A α : Type} (dedent : Msg → Msg) (name alternative : Msg) (f : A → Act σ α) : A → Act σ α :=
  deprecated dedent false name (some (latticeReason name alternative)) f

/-! ## Old accessors of lattices -/

/-- numpy indexing of the first axis by one integer (lattice.py:730, 735, 740): negative indices count from the end. -/
def npIndex {α : Type} (l : List α) (i : Int) : Except Err α :=
  match l[(if i < 0 then i + (l.length : Int) else i).toNat]? with
  | some a => if i < -(l.length : Int) then .error .indexError else .ok a
  | none => .error .indexError

section
variable {σ P : Type} (dedent : Msg → Msg)

/-- lattice.py:321-323, 445-448: `positions`; `pos` is the position of a coordinate. -/
def positions (pos : List Int → P) (L : Lattice) : List P := L.basisCoords.map pos

/-- lattice.py:727-730: `atom_label`. -/
def atomLabel (L : Lattice) : Int → Act σ Int :=
  latticeDeprecated dedent "atom_label".toList "basis_coords[site_id, -1]".toList fun i =>
    pureAct ((npIndex L.basisCoords i).map fun c => c.getLast?.getD 0)

/-- lattice.py:732-735: `site_to_vector`. -/
def siteToVector (L : Lattice) : Int → Act σ (List Int) :=
  latticeDeprecated dedent "site_to_vector".toList "basis_coords[site_id, :-1]".toList fun i =>
    pureAct ((npIndex L.basisCoords i).map List.dropLast)

/-- lattice.py:737-740: `site_to_coord`. -/
def siteToCoord (pos : List Int → P) (L : Lattice) : Int → Act σ P :=
  latticeDeprecated dedent "site_to_coord".toList "positions[site_id]".toList fun i => pureAct (npIndex (positions pos L) i)

/-- lattice.py:742-748: `vector_to_site`. -/
def vectorToSite (L : Lattice) : List Int → Act σ Nat :=
  latticeDeprecated dedent "vector_to_site".toList "id_from_basis_coords([*vector, 0])".toList fun v =>
    pureAct (L.idFromBasisCoords (v ++ [0]))

/-- lattice.py:498-506: `position_from_basis_coords`. -/
def positionFromBasisCoords (pos : List Int → P) (L : Lattice) (c : List Int) : Except Err P :=
  match L.idFromBasisCoords c with
  | .error e => .error e
  | .ok i => npIndex (positions pos L) (i : Int)

/-- lattice.py:750-753: `vector_to_coord`. -/
def vectorToCoord (pos : List Int → P) (L : Lattice) : List Int × Int → Act σ P :=
  latticeDeprecated dedent "vector_to_coord".toList "position_from_basis_coords([*vector, label])".toList fun a =>
    pureAct (positionFromBasisCoords pos L (a.1 ++ [a.2]))

/-- lattice.py:755-759: `coordinates`. -/
def coordinates (pos : List Int → P) (L : Lattice) : Unit → Act σ (List P) :=
  latticeDeprecated dedent "coordinates".toList "positions".toList fun _ => pureAct (.ok (positions pos L))

/-! ## The `graph` argument of Hilbert spaces -/

/-- _deprecations.py:19-43: `graph_to_N_depwarn`; a graph is given by its number of nodes, `text` is the message. -/
def graphToN (text : Msg) (N : Nat) (graph : Option Nat) : Act σ Nat :=
  match graph with
  | none => pureAct (.ok N)
  | some n => andThen (warn (dedent text)) fun _ => pureAct (if N = 1 then .ok n else .error .valueError)

/-- the first line of the constructors (fock.py:38-65, spin.py:58-86, qubit.py:28-41): `N = 1` by default; `build` is the rest. -/
def space {S : Type} (text : Msg) (build : Nat → Except Err S) (N : Option Nat) (graph : Option Nat) : Act σ S :=
  andThen (graphToN dedent text (N.getD 1) graph) fun n => pureAct (build n)

/-- fock.py:204-220: `Boson(n_max, N, n_bosons, graph)`; `fock` are the constructors of `Fock` without the first line. -/
def boson {S : Type} (reason text : Msg) (fock : Option Nat → Option Int → Nat → Except Err S) :
    Option Nat × Option Nat × Option Int × Option Nat → Act σ S :=
  deprecated dedent false "Boson".toList (some reason) fun a => space dedent text (fock a.1 a.2.2.1) (some (a.2.1.getD 1)) a.2.2.2

end

/-! ## The old names of the SR solvers -/

open Verif.SR (Val Kw Obj Solver Key)

/-- the class `QGTOnTheFly` (sr/deprecations.py:45, 74). -/
def objOTF : Val := .obj 2

/-- sr/deprecations.py:38-49, 67-78: `SRLazyCG` (`base = objCG`) and `SRLazyGMRES` (`base = objGMRES`) behind the warnings; `pid` is
    the object made by `partial(base, **kw)`.  The keyword `solver` would be given twice: TypeError. -/
def srLazy (base : Val) (pid : Nat) (diagShift : Val) (restart : Bool) (kw : Kw) : Except Err Obj :=
  if (SR.get kw .solver).isSome then .error .typeError
  else
    match SR.buildSR [objOTF] restart ((.solver, .obj pid) :: (.diagShift, diagShift) :: kw) with
    | .error e => .error e
    | .ok o => .ok { o with solver := if o.solver = .plain (.obj pid) then .withKw base kw else o.solver }

/-- sr/deprecations.py:38-43: the whole function: the warning of the decorator, the one for `centered`, then the object. -/
def srLazyCall {σ : Type} (dedent : Msg → Msg) (name reason centeredText : Msg) (base : Val) (pid : Nat) (diagShift : Val) (centered : Option Bool)
    (restart : Bool) (kw : Kw) : Act σ Obj :=
  deprecated dedent false name (some reason) (fun (_ : Unit) =>
    match centered with
    | none => pureAct (srLazy base pid diagShift restart kw)
    | some _ => andThen (warn (dedent centeredText)) fun _ => pureAct (srLazy base pid diagShift restart kw)) ()

/-! ## The old names of activation functions -/

/-- the old names (activation.py:65-81). -/
inductive Activation
  | cosh
  | tanh
  | sinh
  deriving DecidableEq

/-- activation.py:66, 72, 78: the old name. -/
def Activation.old : Activation → Msg
  | .cosh => "logcosh".toList
  | .tanh => "logtanh".toList
  | .sinh => "logsinh".toList

/-- activation.py:67, 73, 79: the function called. -/
def Activation.new : Activation → Msg
  | .cosh => "log_cosh".toList
  | .tanh => "log_tanh".toList
  | .sinh => "log_sinh".toList

/-- activation.py:65, 71, 77: the reason given. -/
def Activation.reason : Activation → Msg
  | .cosh => "Deprecated. Use log_cosh instead".toList
  | .tanh => "Deprecated. Use log_cosh instead".toList
  | .sinh => "Deprecated. Use log_cosh instead".toList

end Verif.Depr
