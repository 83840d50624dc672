import Verif.Model.Basic
/-!
# Model of `_array_repr`

graphicle/data.py:277-292, used by the arrays, masks and adjacency lists (data.py:521-522, 1150-1151, 1432-1433,
1854-1855, 1956-1957, 2050-2051, 2451-2452).  Texts are lists of characters.  The text numpy gives to the data
(`str(instance._data)`) and to the dtype are parameters.
-/
namespace Gcl
set_option autoImplicit false

/-- `text.split("\n")`, graphicle/data.py:282. -/
def splitNl : List Char → List (List Char)
  | [] => [[]]
  | c :: cs =>
    if c = '\n' then [] :: splitNl cs
    else
      match splitNl cs with
      | [] => [[c]]
      | l :: ls => (c :: l) :: ls

/-- `"\n".join(lines)`, graphicle/data.py:291. -/
def joinNl : List (List Char) → List Char
  | [] => []
  | [l] => l
  | l :: ls => l ++ '\n' :: joinNl ls

/-- `_array_repr`, graphicle/data.py:277-292: `cls` is the class name, `text` what numpy prints for the data, `dtype`
what it prints for the dtype. -/
def arrayRepr (cls text dtype : List Char) : List Char :=
  match splitNl text with
  | [] => []  -- does not occur: `split` gives at least one line
  | first :: splits =>
    let idnt := List.replicate (cls.length + 1) ' '
    let dtypeStr := "dtype=".toList ++ dtype
    if splits.isEmpty then cls ++ "(".toList ++ first ++ ", ".toList ++ dtypeStr ++ ")".toList
    else
      let rows := joinNl (splits.map (fun l => idnt ++ l))
      cls ++ "(".toList ++ first ++ "\n".toList ++ rows ++ ",\n".toList ++ (idnt ++ dtypeStr) ++ ")".toList

end Gcl
