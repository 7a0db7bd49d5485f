import Verif.Model.Gather

/-! Vocabulary about programs made of statements. -/

set_option autoImplicit false

namespace Silice

mutual

/-- Every execution of the statements takes place within the cycle in which it starts: no `++:`, loop, `break`, call, join or `return`. -/
def Prg.stateless : Prg → Bool
  | .nil => true
  | .instr _ k => k.stateless
  | .block b k => b.stateless && k.stateless
  | .ifThen _ t k => t.stateless && k.stateless
  | .ifElse _ t e k => t.stateless && e.stateless && k.stateless
  | .switch _ cs k => casesStateless cs && k.stateless
  | .step _ | .loop _ _ _ | .brk _ | .call _ _ _ _ _ | .join _ _ _ _ | .ret _ => false

/-- All cases of a switch are. -/
def casesStateless : List (Option Nat × Prg) → Bool
  | [] => true
  | (_, p) :: cs => p.stateless && casesStateless cs

end

/-- Instructions up to a `return`. -/
def Prg.endsAtRet : Prg → Bool
  | .ret _ => true
  | .instr _ k => k.endsAtRet
  | _ => false

mutual

/-- Every switch that contains more than a cycle, or is followed by instructions and a `return`, has a default. -/
def Prg.switchOk : Prg → Bool
  | .nil => true
  | .instr _ k | .step k | .brk k | .call _ _ _ _ k | .join _ _ _ k | .ret k => k.switchOk
  | .block b k | .ifThen _ b k | .loop _ b k => b.switchOk && k.switchOk
  | .ifElse _ t e k => t.switchOk && e.switchOk && k.switchOk
  | .switch _ cs k =>
    (cs.any (fun p => p.1.isNone) || (casesStateless cs && !k.endsAtRet)) && casesSwitchOk cs && k.switchOk

/-- So has every switch in the cases of a switch. -/
def casesSwitchOk : List (Option Nat × Prg) → Bool
  | [] => true
  | (_, p) :: cs => p.switchOk && casesSwitchOk cs

end

mutual

/-- The statements contain a `break` of the enclosing loop. -/
def Prg.breaks : Prg → Bool
  | .nil => false
  | .instr _ k | .step k | .loop _ _ k | .call _ _ _ _ k | .join _ _ _ k | .ret k => k.breaks
  | .block b k | .ifThen _ b k => b.breaks || k.breaks
  | .ifElse _ t e k => t.breaks || e.breaks || k.breaks
  | .brk _ => true
  | .switch _ cs k => casesBreaks cs || k.breaks

/-- So does a case of a switch. -/
def casesBreaks : List (Option Nat × Prg) → Bool
  | [] => false
  | (_, p) :: cs => p.breaks || casesBreaks cs

end

/-- Programs whose switches have the defaults they need. -/
def AlgUnit.switchOk (u : AlgUnit) : Bool := u.main.switchOk && (u.globals ++ u.locals).all Prg.switchOk

end Silice
