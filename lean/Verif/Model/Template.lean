import Verif.Model.Text

/-!
# Replacement of markers in templates

Models `VerilogTemplate::fromString` (/repo/src/VerilogTemplate.cpp:50-60), used for memories (/repo/src/Algorithm.cpp:9434-9498) and for the top
module of frameworks (/repo/src/SiliceCompiler.cpp:692-700): for each key, all `%KEY%` are replaced by `std::regex_replace`.

Simplification: keys are texts without characters that are special in regular expressions, which all keys in the code are.
-/

set_option autoImplicit false

namespace Silice

/-- How `std::regex_replace` writes a value, /repo/src/VerilogTemplate.cpp:57: in the default (ECMAScript) format `$$` is a dollar, `$&` and `$0` are what was
matched; there are no groups, so that other numbers give nothing. `none`: the text around the match is asked for (not modelled). -/
def formatValue (m : List Char) : List Char → Option (List Char)
  | [] => some []
  | '$' :: '$' :: r => (formatValue m r).map ('$' :: ·)
  | '$' :: '&' :: r => (formatValue m r).map (m ++ ·)
  | '$' :: '`' :: _ => none
  | '$' :: '\'' :: _ => none
  | '$' :: c :: r =>
    match digitVal? c with
    | none => (formatValue m (c :: r)).map ('$' :: ·)
    | some a =>
      match r with
      | [] => some (if a = 0 then m else [])
      | d :: r' =>
        match digitVal? d with
        | none => (formatValue m (d :: r')).map ((if a = 0 then m else []) ++ ·)
        | some b => (formatValue m r').map ((if 10 * a + b = 0 then m else []) ++ ·)
  | c :: r => (formatValue m r).map (c :: ·)
termination_by l => l.length

/-- `%KEY%` -/
def marker (k : List Char) : List Char := '%' :: (k ++ ['%'])

/-- `std::regex_replace` of a marker by a (formatted) value: occurrences are looked for from the left, after the last one. -/
def replaceAll (k v : List Char) : List Char → List Char
  | [] => []
  | c :: cs =>
    if marker k <+: c :: cs then v ++ replaceAll k v (cs.drop (k.length + 1)) else c :: replaceAll k v cs
termination_by l => l.length

/-- `VerilogTemplate::fromString`, /repo/src/VerilogTemplate.cpp:50-60, the replacements being visited in the order of the list; the map of the code is unordered, so
that it can be any. -/
def fromString : List (List Char × List Char) → List Char → Option (List Char)
  | [], code => some code
  | (k, v) :: r, code =>
    match formatValue (marker k) v with
    | none => none
    | some v' => fromString r (replaceAll k v' code)

end Silice
