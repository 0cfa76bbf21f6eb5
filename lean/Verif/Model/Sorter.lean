import Verif.Model.Ast

/-!
# `asn1_parser/generators/cfs/module_sorter.py`
-/

namespace Apg

/-- `is_all_defined` (`module_sorter.py:45-75`): a sequence or choice is ready
when the type names of all its members are in `defined_list`; enumerations and
simple definitions are always ready. The `isinstance(type_name, Array)` and
`Asn1String` branches (49-52) are dead: `get_type_name` returns a `str`. -/
def Def.ready (defined : List String) : Def → Bool
  | .seq _ _ ms => ms.all (fun m => defined.contains m.type.name)
  | .choice _ _ ms => ms.all (fun m => defined.contains m.type.name)
  | .enum .. => true
  | .simple .. => true

/-- One run of the `for` loop (`module_sorter.py:44-71`) over the definitions not
yet emitted: returns the emitted definitions in order, those left over, and the
new `defined_list`. `remove` works by object identity and every object occurs
once, so "not emitted" is exactly "left over". -/
def sortPass (defined : List String) : List Def → List Def × List Def × List String
  | [] => ([], [], defined)
  | d :: ds =>
    if d.ready defined then
      let (out, left, defd) := sortPass (defined ++ [d.name]) ds
      (d :: out, left, defd)
    else
      let (out, left, defd) := sortPass defined ds
      (out, d :: left, defd)

/-- The `while` loop (`module_sorter.py:42-77`) with fuel; `none` is "still
running". -/
def sortLoop : Nat → List String → List Def → List Def → Option (List Def)
  | 0, _, _, _ => none
  | fuel + 1, defined, done, todo =>
    match todo with
    | [] => some done
    | _ :: _ =>
      let (out, left, defd) := sortPass defined todo
      sortLoop fuel defd (done ++ out) left

/-- Names known at the start (`module_sorter.py:19-35`). -/
def sortBase (m : Module) : List String :=
  predefined ++ m.imports.flatMap (·.defs)

/-- `get_definitions_sorted_by_dependency` (`module_sorter.py:16-77`). -/
def sortDefs (fuel : Nat) (m : Module) : Option (List Def) :=
  sortLoop fuel (sortBase m) [] m.defs

/-- `_get_import_names` (`module_sorter.py:103-112`): the names of all modules
imported by some module of the list. -/
def importNames (ms : List Module) : List String :=
  ms.flatMap (fun m => m.imports.map (·.module))

/-- State of the two nested loops of `create_ordered_import_list`: the parallel
lists `module_list` and `module_names`, and `module_order`. `import_names` is
always `_get_import_names(module_list)`. -/
structure OrderState where
  mods : List Module
  names : List String
  order : List Module

/-- The `for` loop over `enumerate(module_names)` from index `i` on
(`module_sorter.py:90-99`). The loop body removes entries from the lists it
iterates over, so after a removal the next entry is skipped. `module_list.remove`
removes the very object at index `i`; `module_names.remove` removes the first
entry equal to the name. -/
def orderPass (i : Nat) (s : OrderState) : OrderState :=
  if h : i < s.names.length then
    let name := s.names[i]
    if (importNames s.mods).contains name then orderPass (i + 1) s
    else
      match s.mods[i]? with
      | none => s
      | some m =>
        orderPass (i + 1)
          { mods := s.mods.eraseIdx i
            names := s.names.erase m.name
            order := s.order ++ [m] }
  else s
termination_by s.names.length - i
decreasing_by
  · omega
  · have : (s.names.erase m.name).length ≤ s.names.length := List.length_erase_le ..
    omega

/-- The `while` loop (`module_sorter.py:89-100`) with fuel. -/
def orderLoop : Nat → OrderState → Option (List Module)
  | 0, _ => none
  | fuel + 1, s =>
    match s.mods with
    | [] => some s.order
    | _ :: _ => orderLoop fuel (orderPass 0 s)

/-- `create_ordered_import_list` (`module_sorter.py:80-100`). -/
def orderModules (fuel : Nat) (ms : List Module) : Option (List Module) :=
  orderLoop fuel { mods := ms, names := ms.map (·.name), order := [] }

end Apg
