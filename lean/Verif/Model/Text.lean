/-
Decimal text and splitting of character sequences, used to model the strings the compiler builds and parses.
Strings are modelled as `List Char`.
-/
set_option autoImplicit false
namespace Silice

/-- Decimal digit `0..9` as a character. -/
def digitChar (d : Nat) : Char := Char.ofNat (48 + d)

/-- `std::to_string` on a non-negative integer (used e.g. at /repo/src/Algorithm.cpp:6308). -/
def natToDec (n : Nat) : List Char :=
  if n < 10 then [digitChar n] else natToDec (n / 10) ++ [digitChar (n % 10)]

/-- Value of a decimal digit character. -/
def digitVal? (c : Char) : Option Nat :=
  if 48 ≤ c.toNat ∧ c.toNat ≤ 57 then some (c.toNat - 48) else none

def isDigitC (c : Char) : Bool := (digitVal? c).isSome

/-- Accumulating decimal value of a list of digit characters (stops at the first non-digit). -/
def decAcc : Nat → List Char → Nat
  | acc, [] => acc
  | acc, c :: cs =>
    match digitVal? c with
    | some d => decAcc (acc * 10 + d) cs
    | none => acc

/-- `std::stoi` restricted to inputs without sign or leading blanks: value of the longest digit prefix, an
exception (`none`) when there is no digit (used at /repo/src/Algorithm.cpp:1439-1440). Simplification: no
`int` overflow. -/
def stoiDec (s : List Char) : Option Nat :=
  match s with
  | [] => none
  | c :: _ => if isDigitC c then some (decAcc 0 s) else none

/-- One `std::getline(stream, s, d)`: the characters before the first delimiter and the remaining stream;
`none` for the remaining stream when the delimiter was not found (end of stream reached). -/
def getlineC (d : Char) : List Char → List Char × Option (List Char)
  | [] => ([], none)
  | c :: cs =>
    if c = d then ([], some cs)
    else
      let r := getlineC d cs
      (c :: r.1, r.2)

theorem getlineC_rest_length (d : Char) (s rest : List Char) (h : (getlineC d s).2 = some rest) :
    rest.length < s.length := by
  induction s with
  | nil => simp [getlineC] at h
  | cons c cs ih =>
    simp only [getlineC] at h
    split at h
    · simp at h; subst h; simp
    · simp at h; have := ih h; simp; omega

/-- `while (getline(stream, s, d)) ...`: the sequence of extracted strings. Extraction fails (loop ends) when no
character is left. -/
def getlines (d : Char) (s : List Char) : List (List Char) :=
  match s with
  | [] => []
  | c :: cs =>
    match _h : (getlineC d (c :: cs)).2 with
    | none => [(getlineC d (c :: cs)).1]
    | some rest => (getlineC d (c :: cs)).1 :: getlines d rest
termination_by s.length
decreasing_by exact getlineC_rest_length d _ _ _h

end Silice
